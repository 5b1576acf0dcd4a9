import Verif.Kino.Path
set_option linter.unusedSectionVars false

/-!
# Kinodynamic paths along which the robot faces its velocity (C104)

The robot is a free flying body: three translations (`KP`, one each), a quaternion and the velocity. The other joints are not modelled.
-/
namespace Verif.Kino

/-- A vector of space. -/
structure V3 where
  x : ℝ
  y : ℝ
  z : ℝ

/-- A quaternion. -/
structure Quat where
  w : ℝ
  x : ℝ
  y : ℝ
  z : ℝ

/-- Squared norm of a vector. -/
def V3.sq (v : V3) : ℝ := v.x ^ 2 + v.y ^ 2 + v.z ^ 2
/-- Norm of a vector. -/
noncomputable def V3.norm (v : V3) : ℝ := Real.sqrt v.sq
/-- Direction of a vector. -/
noncomputable def V3.dir (v : V3) : V3 := ⟨v.x / v.norm, v.y / v.norm, v.z / v.norm⟩
/-- Squared norm of a quaternion. -/
def Quat.sq (q : Quat) : ℝ := q.w ^ 2 + q.x ^ 2 + q.y ^ 2 + q.z ^ 2
/-- Image of the first axis by the rotation of a quaternion. -/
def Quat.axisX (q : Quat) : V3 :=
  ⟨q.w ^ 2 + q.x ^ 2 - q.y ^ 2 - q.z ^ 2, 2 * (q.x * q.y + q.w * q.z), 2 * (q.x * q.z - q.w * q.y)⟩

/-- Second half of `Eigen::Quaterniond::FromTwoVectors (UnitX, v)` (external), for the direction `d` of `v`. `prec`: precision of the
comparison to opposite vectors; `a`: unit vector orthogonal to both vectors computed by a singular value decomposition. -/
noncomputable def quatOf (prec : ℝ) (a d : V3) : Quat :=
  if d.x < -1 + prec then
    ⟨Real.sqrt ((1 + d.x) * (1 / 2)), a.x * Real.sqrt (1 - (1 + d.x) * (1 / 2)), a.y * Real.sqrt (1 - (1 + d.x) * (1 / 2)),
      a.z * Real.sqrt (1 - (1 + d.x) * (1 / 2))⟩
  else ⟨Real.sqrt ((1 + d.x) * 2) / 2, 0, -d.z / Real.sqrt ((1 + d.x) * 2), d.y / Real.sqrt ((1 + d.x) * 2)⟩

/-- `Eigen::Quaterniond::FromTwoVectors (UnitX, v)` (external). -/
noncomputable def fromX (prec : ℝ) (axis : V3 → V3) (v : V3) : Quat := quatOf prec (axis v.dir) v.dir

/-- Contract of the singular value decomposition: unit vector orthogonal to the first axis and to the other vector. -/
structure AxisOk (axis : V3 → V3) : Prop where
  unit : ∀ d, (axis d).sq = 1
  orthX : ∀ d, (axis d).x = 0
  orthV : ∀ d, (axis d).x * d.x + (axis d).y * d.y + (axis d).z * d.z = 0

/-- Squared distance. -/
def V3.dist2 (u v : V3) : ℝ := (u.x - v.x) ^ 2 + (u.y - v.y) ^ 2 + (u.z - v.z) ^ 2

theorem norm_pos_iff (v : V3) : 0 < v.norm ↔ ¬ (v.x = 0 ∧ v.y = 0 ∧ v.z = 0) := by
  unfold V3.norm
  rw [Real.sqrt_pos]
  unfold V3.sq
  constructor
  · rintro h ⟨h1, h2, h3⟩
    rw [h1, h2, h3] at h; norm_num at h
  · intro h
    by_contra hc
    apply h
    have a := sq_nonneg v.x
    have b := sq_nonneg v.y
    have c := sq_nonneg v.z
    refine ⟨?_, ?_, ?_⟩ <;> apply pow_eq_zero_iff (n := 2) (by norm_num) |>.1 <;> linarith

theorem dir_sq (v : V3) (h : 0 < v.norm) : v.dir.sq = 1 := by
  have h2 : v.norm ^ 2 = v.sq := by
    unfold V3.norm
    exact Real.sq_sqrt (by unfold V3.sq; positivity)
  have h1 : v.norm ^ 2 ≠ 0 := by positivity
  simp only [V3.dir, V3.sq, div_pow]
  rw [← add_div, ← add_div, div_eq_one_iff_eq h1, h2]
  rfl

/-- Unless the direction is almost opposite to the first axis, the quaternion is a unit one which turns the first axis to the direction. -/
theorem quatOf_far (prec : ℝ) (hp : 0 < prec) (a d : V3) (hd : d.sq = 1) (hn : ¬ d.x < -1 + prec) :
    (quatOf prec a d).sq = 1 ∧ (quatOf prec a d).axisX = d := by
  obtain ⟨dx, dy, dz⟩ := d
  simp only [V3.sq] at hd
  simp only at hn
  have h1 : 0 < (1 + dx) * 2 := by linarith
  have hs : Real.sqrt ((1 + dx) * 2) ^ 2 = (1 + dx) * 2 := Real.sq_sqrt h1.le
  have hs0 : 0 < Real.sqrt ((1 + dx) * 2) := Real.sqrt_pos.2 h1
  simp only [quatOf, if_neg hn, Quat.sq, Quat.axisX]
  generalize Real.sqrt ((1 + dx) * 2) = s at hs hs0
  have hx : dx = s ^ 2 / 2 - 1 := by linarith
  have hyz : dy ^ 2 + dz ^ 2 = 1 - dx ^ 2 := by linarith
  have hne : s ≠ 0 := hs0.ne'
  have key : (-dz / s) ^ 2 + (dy / s) ^ 2 = 1 - s ^ 2 / 4 := by
    rw [div_pow, div_pow, ← add_div, neg_sq, add_comm, hyz, hx, div_eq_iff (by positivity)]; ring
  refine ⟨by nlinarith [key], ?_⟩
  congr 1
  · nlinarith [key]
  · field_simp; ring
  · field_simp; ring

/-- If the direction is almost opposite to the first axis, the quaternion is a unit one which turns the first axis close to the direction. -/
theorem quatOf_near (prec : ℝ) (a d : V3) (hd : d.sq = 1) (ha : a.sq = 1) (ha1 : a.x = 0) (ha2 : a.x * d.x + a.y * d.y + a.z * d.z = 0)
    (hn : d.x < -1 + prec) : (quatOf prec a d).sq = 1 ∧ V3.dist2 (quatOf prec a d).axisX d ≤ 4 * (1 - d.x ^ 2) := by
  obtain ⟨dx, dy, dz⟩ := d
  obtain ⟨ax, ay, az⟩ := a
  simp only [V3.sq] at hd ha ha1 ha2 hn ⊢
  subst ha1
  have hx1 : -1 ≤ dx := by nlinarith [sq_nonneg dy, sq_nonneg dz]
  have hx2 : dx ≤ 1 := by nlinarith [sq_nonneg dy, sq_nonneg dz]
  have hw : Real.sqrt ((1 + dx) * (1 / 2)) ^ 2 = (1 + dx) * (1 / 2) := Real.sq_sqrt (by linarith)
  have hv : Real.sqrt (1 - (1 + dx) * (1 / 2)) ^ 2 = 1 - (1 + dx) * (1 / 2) := Real.sq_sqrt (by linarith)
  simp only [quatOf, if_pos hn, Quat.sq, Quat.axisX, V3.dist2]
  generalize Real.sqrt ((1 + dx) * (1 / 2)) = W at hw
  generalize Real.sqrt (1 - (1 + dx) * (1 / 2)) = S at hv
  have ha' : ay ^ 2 + az ^ 2 = 1 := by linarith
  constructor
  · have : (ay * S) ^ 2 + (az * S) ^ 2 = S ^ 2 := by
      have : (ay * S) ^ 2 + (az * S) ^ 2 = (ay ^ 2 + az ^ 2) * S ^ 2 := by ring
      rw [this, ha', one_mul]
    nlinarith
  · have h1 : W ^ 2 + (0 * S) ^ 2 - (ay * S) ^ 2 - (az * S) ^ 2 - dx = 0 := by
      have : W ^ 2 + (0 * S) ^ 2 - (ay * S) ^ 2 - (az * S) ^ 2 - dx = W ^ 2 - (ay ^ 2 + az ^ 2) * S ^ 2 - dx := by ring
      rw [this, ha', hw, hv]; ring
    rw [h1]
    have h2 : (2 * (W * S)) ^ 2 = 1 - dx ^ 2 := by
      have : (2 * (W * S)) ^ 2 = 4 * W ^ 2 * S ^ 2 := by ring
      rw [this, hw, hv]; ring
    have h3 : dy ^ 2 + dz ^ 2 = 1 - dx ^ 2 := by linarith
    have h4 : (0 : ℝ) ^ 2 + (2 * (0 * S * (ay * S) + W * (az * S)) - dy) ^ 2 + (2 * (0 * S * (az * S) - W * (ay * S)) - dz) ^ 2 =
        (2 * (W * S)) ^ 2 * (ay ^ 2 + az ^ 2) + (dy ^ 2 + dz ^ 2) - 2 * ((2 * (W * S)) * (az * dy - ay * dz)) := by ring
    rw [h4, h2, ha', h3]
    have h5 : (az * dy - ay * dz) ^ 2 ≤ 1 - dx ^ 2 := by
      have : (az * dy - ay * dz) ^ 2 = (ay ^ 2 + az ^ 2) * (dy ^ 2 + dz ^ 2) - (ay * dy + az * dz) ^ 2 := by ring
      rw [this, ha', h3]
      nlinarith [sq_nonneg (ay * dy + az * dz)]
    nlinarith [sq_nonneg ((2 * (W * S)) + (az * dy - ay * dz))]

/-- The two cases together: the rotation is exact unless the direction is almost, and not exactly, opposite to the first axis, and its
error is small in that case. -/
theorem fromX_spec (prec : ℝ) (hp : 0 < prec) (hp1 : prec < 1) (axis : V3 → V3) (ha : AxisOk axis) (v : V3) (h : 0 < v.norm) :
    (fromX prec axis v).sq = 1 ∧ V3.dist2 (fromX prec axis v).axisX v.dir ≤ 8 * prec ∧
    ((-1 + prec ≤ v.dir.x ∨ v.dir.x = -1) → (fromX prec axis v).axisX = v.dir) := by
  have hd := dir_sq v h
  unfold fromX
  by_cases hn : v.dir.x < -1 + prec
  · obtain ⟨h1, h2⟩ := quatOf_near prec (axis v.dir) v.dir hd (ha.unit _) (ha.orthX _) (ha.orthV _) hn
    have hx1 : -1 ≤ v.dir.x := by
      have := hd
      unfold V3.sq at this
      nlinarith [sq_nonneg v.dir.y, sq_nonneg v.dir.z]
    refine ⟨h1, h2.trans ?_, ?_⟩
    · nlinarith
    · rintro (h3 | h3)
      · linarith
      · rw [h3] at h2
        have h4 : V3.dist2 (quatOf prec (axis v.dir) v.dir).axisX v.dir ≤ 0 := by linarith
        unfold V3.dist2 at h4
        have a := sq_nonneg ((quatOf prec (axis v.dir) v.dir).axisX.x - v.dir.x)
        have b := sq_nonneg ((quatOf prec (axis v.dir) v.dir).axisX.y - v.dir.y)
        have c := sq_nonneg ((quatOf prec (axis v.dir) v.dir).axisX.z - v.dir.z)
        have a' := sub_eq_zero.1 (pow_eq_zero_iff (n := 2) (by norm_num) |>.1 (le_antisymm (by linarith) a))
        have b' := sub_eq_zero.1 (pow_eq_zero_iff (n := 2) (by norm_num) |>.1 (le_antisymm (by linarith) b))
        have c' := sub_eq_zero.1 (pow_eq_zero_iff (n := 2) (by norm_num) |>.1 (le_antisymm (by linarith) c))
        cases hq : (quatOf prec (axis v.dir) v.dir).axisX with
        | mk x y z =>
          rw [hq] at a' b' c'
          simp only at a' b' c'
          rw [a', b', c']
  · obtain ⟨h1, h2⟩ := quatOf_far prec hp (axis v.dir) v.dir hd hn
    refine ⟨h1, ?_, fun _ => h2⟩
    rw [h2]
    unfold V3.dist2
    simp only [sub_self]
    nlinarith

/-! ## Paths -/

/-- Position, velocity and orientation. -/
structure State where
  p : V3
  v : V3
  q : Quat

/-- A `KinodynamicPath`: the three translations and the orientations of the end configurations. -/
structure KB where
  x : KP
  y : KP
  z : KP
  len : ℝ
  q1 : Quat
  q2 : Quat

/-- `KinodynamicPath::impl_compute`: src/kinodynamic-path.cc:173-260. `interp`: interpolation of orientations (pinocchio). -/
noncomputable def KB.eval (interp : Quat → Quat → ℝ → Quat) (b : KB) (t : ℝ) : State :=
  ⟨⟨(b.x.eval t).1, (b.y.eval t).1, (b.z.eval t).1⟩, ⟨(b.x.eval t).2, (b.y.eval t).2, (b.z.eval t).2⟩,
    if t = 0 ∨ b.len = 0 then b.q1 else if t = b.len then b.q2 else interp b.q1 b.q2 (t / b.len)⟩

/-- The velocity the robot faces: src/kinodynamic-oriented-path.cc:47-50, 113. -/
def heading (ign : Bool) (v : V3) : V3 := if ign then ⟨v.x, v.y, 0⟩ else v

/-- Orientation along the velocity if there is one: kinodynamic-oriented-path.cc:51-58, 114-121. -/
noncomputable def face (F : V3 → Quat) (ign : Bool) (v : V3) (q : Quat) : Quat :=
  if 0 < (heading ign v).norm then F (heading ign v) else q

/-- A `KinodynamicOrientedPath`. -/
structure OP where
  base : KB
  ign : Bool

/-- Constructor from a kinodynamic path and `orienteInitAndGoal`: kinodynamic-oriented-path.cc:36-67, 99-103. -/
noncomputable def OP.create (F : V3 → Quat) (b : KB) (ign : Bool) : OP :=
  ⟨⟨b.x, b.y, b.z, b.len, face F ign ⟨b.x.v1, b.y.v1, b.z.v1⟩ b.q1, face F ign ⟨b.x.v2, b.y.v2, b.z.v2⟩ b.q2⟩, ign⟩

/-- `KinodynamicOrientedPath::impl_compute`: kinodynamic-oriented-path.cc:105-124. -/
noncomputable def OP.eval (F : V3 → Quat) (interp : Quat → Quat → ℝ → Quat) (o : OP) (t : ℝ) : State :=
  let s := o.base.eval interp t
  ⟨s.p, s.v, face F o.ign s.v s.q⟩

/-- Initial configuration (`StraightPath::initial`). -/
noncomputable def OP.initial (o : OP) : State :=
  ⟨⟨o.base.x.p1, o.base.y.p1, o.base.z.p1⟩, ⟨o.base.x.v1, o.base.y.v1, o.base.z.v1⟩, o.base.q1⟩

/-- Final configuration (`StraightPath::end`). -/
noncomputable def OP.final (o : OP) : State :=
  ⟨⟨o.base.x.p2, o.base.y.p2, o.base.z.p2⟩, ⟨o.base.x.v2, o.base.y.v2, o.base.z.v2⟩, o.base.q2⟩

/-- `KinodynamicOrientedPath::impl_extract`: kinodynamic-oriented-path.cc:131-142; the extraction of the parent class evaluates the path by the
virtual method. `none`: a null pointer. -/
noncomputable def OP.extract (F : V3 → Quat) (interp : Quat → Quat → ℝ → Quat) (o : OP) (a b : ℝ) : Option OP :=
  if a = 0 ∧ b = o.base.len then some (OP.create F o.base o.ign)
  else match o.base.x.extract a b, o.base.y.extract a b, o.base.z.extract a b with
    | .kino X, .kino Y, .kino Z => some (OP.create F ⟨X, Y, Z, |b - a|, (o.eval F interp a).q, (o.eval F interp b).q⟩ o.ign)
    | _, _, _ => none

/-- The three translations are consistent and have the same duration. -/
structure KB.Coherent (b : KB) : Prop where
  x : b.x.Coherent
  y : b.y.Coherent
  z : b.z.Coherent
  lx : b.x.len = b.len
  ly : b.y.len = b.len
  lz : b.z.len = b.len

theorem face_face (F : V3 → Quat) (ign : Bool) (v : V3) (q : Quat) : face F ign v (face F ign v q) = face F ign v q := by
  unfold face
  by_cases h : 0 < (heading ign v).norm
  · rw [if_pos h, if_pos h]
  · rw [if_neg h, if_neg h]

/-- Positions and velocities of an oriented path are those of the kinodynamic path. -/
theorem C104_position (F : V3 → Quat) (interp : Quat → Quat → ℝ → Quat) (b : KB) (ign : Bool) (t : ℝ) :
    ((OP.create F b ign).eval F interp t).p = (b.eval interp t).p ∧ ((OP.create F b ign).eval F interp t).v = (b.eval interp t).v := ⟨rfl, rfl⟩

/-- C104: at any time at which the velocity (without its vertical part if asked for) is not zero, the orientation is a unit quaternion that turns
the first axis of the robot to the direction of the velocity, up to the precision of the computation of rotations. -/
theorem C104_facing (prec : ℝ) (hp : 0 < prec) (hp1 : prec < 1) (axis : V3 → V3) (ha : AxisOk axis) (interp : Quat → Quat → ℝ → Quat)
    (o : OP) (t : ℝ) (h : 0 < (heading o.ign (o.eval (fromX prec axis) interp t).v).norm) :
    (o.eval (fromX prec axis) interp t).q.sq = 1 ∧
    V3.dist2 (o.eval (fromX prec axis) interp t).q.axisX (heading o.ign (o.eval (fromX prec axis) interp t).v).dir ≤ 8 * prec ∧
    ((-1 + prec ≤ (heading o.ign (o.eval (fromX prec axis) interp t).v).dir.x ∨
      (heading o.ign (o.eval (fromX prec axis) interp t).v).dir.x = -1) →
      (o.eval (fromX prec axis) interp t).q.axisX = (heading o.ign (o.eval (fromX prec axis) interp t).v).dir) := by
  have e : (o.eval (fromX prec axis) interp t).q = fromX prec axis (heading o.ign (o.eval (fromX prec axis) interp t).v) := by
    simp only [OP.eval] at h ⊢
    unfold face
    rw [if_pos h]
  rw [e]
  exact fromX_spec prec hp hp1 axis ha _ h

/-- The heading is the velocity, or its horizontal part if asked for. -/
theorem heading_spec (v : V3) : heading false v = v ∧ heading true v = ⟨v.x, v.y, 0⟩ := ⟨rfl, rfl⟩

/-- C104: the initial and final configurations are the values of the path at its ends. -/
theorem C104_ends (F : V3 → Quat) (interp : Quat → Quat → ℝ → Quat) (b : KB) (hb : b.Coherent) (ign : Bool) (hl : b.len ≠ 0) :
    (OP.create F b ign).eval F interp 0 = (OP.create F b ign).initial ∧
    (OP.create F b ign).eval F interp b.len = (OP.create F b ign).final := by
  have x0 := (C80_eval hb.x).2
  have y0 := (C80_eval hb.y).2
  have z0 := (C80_eval hb.z).2
  rw [hb.lx] at x0
  rw [hb.ly] at y0
  rw [hb.lz] at z0
  constructor
  · simp only [OP.eval, KB.eval, OP.create, OP.initial, x0.1, y0.1, z0.1, true_or, if_true, face_face]
  · simp only [OP.eval, KB.eval, OP.create, OP.final, x0.2, y0.2, z0.2, hl, or_self, if_false, if_true, face_face]

/-- C104: the ends keep position, velocity, and orientation if it already was along the velocity or the velocity is zero. -/
theorem C104_keeps (F : V3 → Quat) (b : KB) (ign : Bool)
    (h1 : 0 < (heading ign ⟨b.x.v1, b.y.v1, b.z.v1⟩).norm → b.q1 = F (heading ign ⟨b.x.v1, b.y.v1, b.z.v1⟩))
    (h2 : 0 < (heading ign ⟨b.x.v2, b.y.v2, b.z.v2⟩).norm → b.q2 = F (heading ign ⟨b.x.v2, b.y.v2, b.z.v2⟩)) :
    (OP.create F b ign).initial.q = b.q1 ∧ (OP.create F b ign).final.q = b.q2 := by
  simp only [OP.initial, OP.final, OP.create, face]
  constructor
  · by_cases h : 0 < (heading ign ⟨b.x.v1, b.y.v1, b.z.v1⟩).norm
    · rw [if_pos h, h1 h]
    · rw [if_neg h]
  · by_cases h : 0 < (heading ign ⟨b.x.v2, b.y.v2, b.z.v2⟩).norm
    · rw [if_pos h, h2 h]
    · rw [if_neg h]

/-- C104: a part of an oriented path is an oriented path which takes the same values, at times at which the velocity is not zero. -/
theorem C104_extract_partial (F : V3 → Quat) (interp : Quat → Quat → ℝ → Quat) (o : OP) (ho : o.base.Coherent) {a b : ℝ} (h0 : 0 ≤ a)
    (hab : a < b) (hb : b ≤ o.base.len) :
    ∃ o', o.extract F interp a b = some o' ∧ o'.base.Coherent ∧ o'.base.len = b - a ∧ o'.ign = o.ign ∧ ∀ t, 0 ≤ t → t ≤ b - a →
      (o'.eval F interp t).p = (o.eval F interp (a + t)).p ∧ (o'.eval F interp t).v = (o.eval F interp (a + t)).v ∧
      (0 < (heading o.ign (o.eval F interp (a + t)).v).norm → (o'.eval F interp t).q = (o.eval F interp (a + t)).q) := by
  have orient : ∀ o' : OP, o'.ign = o.ign → (∀ t, 0 ≤ t → t ≤ b - a → o'.base.x.eval t = o.base.x.eval (a + t) ∧
      o'.base.y.eval t = o.base.y.eval (a + t) ∧ o'.base.z.eval t = o.base.z.eval (a + t)) → ∀ t, 0 ≤ t → t ≤ b - a →
      (o'.eval F interp t).p = (o.eval F interp (a + t)).p ∧ (o'.eval F interp t).v = (o.eval F interp (a + t)).v ∧
      (0 < (heading o.ign (o.eval F interp (a + t)).v).norm → (o'.eval F interp t).q = (o.eval F interp (a + t)).q) := by
    intro o' hi he t ht0 ht1
    obtain ⟨e1, e2, e3⟩ := he t ht0 ht1
    simp only [OP.eval, KB.eval, e1, e2, e3, hi]
    refine ⟨trivial, trivial, fun h => ?_⟩
    unfold face
    rw [if_pos h, if_pos h]
  by_cases hf : a = 0 ∧ b = o.base.len
  · refine ⟨OP.create F o.base o.ign, by unfold OP.extract; rw [if_pos hf], ⟨ho.x, ho.y, ho.z, ho.lx, ho.ly, ho.lz⟩, ?_, rfl, ?_⟩
    · show o.base.len = b - a
      rw [hf.1, hf.2, sub_zero]
    · apply orient
      · rfl
      · intro t _ _
        rw [hf.1, zero_add]
        exact ⟨rfl, rfl, rfl⟩
  · obtain ⟨X, x1, x2, x3, x4⟩ := C81_extract ho.x h0 hab (by rw [ho.lx]; exact hb)
    obtain ⟨Y, y1, y2, y3, y4⟩ := C81_extract ho.y h0 hab (by rw [ho.ly]; exact hb)
    obtain ⟨Z, z1, z2, z3, z4⟩ := C81_extract ho.z h0 hab (by rw [ho.lz]; exact hb)
    have hl : |b - a| = b - a := abs_of_pos (by linarith)
    refine ⟨OP.create F ⟨X, Y, Z, |b - a|, (o.eval F interp a).q, (o.eval F interp b).q⟩ o.ign,
      by unfold OP.extract; rw [if_neg hf, x1, y1, z1], ⟨x2, y2, z2, ?_, ?_, ?_⟩, hl, rfl, ?_⟩
    · exact x3.trans hl.symm
    · exact y3.trans hl.symm
    · exact z3.trans hl.symm
    · apply orient
      · rfl
      · intro t h1 h2
        exact ⟨x4 t h1 h2, y4 t h1 h2, z4 t h1 h2⟩

/-- C104: no path is returned (null pointer) for an interval reduced to a point inside the path, nor for a reversed interval. -/
theorem C104_null (F : V3 → Quat) (interp : Quat → Quat → ℝ → Quat) (o : OP) (ho : o.base.Coherent) {a b : ℝ} (h : b ≤ a)
    (hl : 0 < o.base.len) (ha : 0 ≤ b) : o.extract F interp a b = none := by
  have hne : ¬ (a = 0 ∧ b = o.base.len) := by rintro ⟨rfl, rfl⟩; linarith
  unfold OP.extract
  rw [if_neg hne]
  rw [← ho.lx] at hne
  rcases h.lt_or_eq with h | h
  · rw [(C81_degenerate o.base.x a b).1 h hne]
  · subst h
    rw [(C81_degenerate o.base.x b b).2 hne]

/-! ## Examples and counterexamples -/

namespace OEx

/-- Along the first axis: slow down from velocity 1 to 0 in one unit of time, then wait. -/
noncomputable def X : KP := ⟨0, 1, 1 / 2, 0, 2, -1, 0, 1, 1, 0, 0⟩
/-- Along the second axis: wait for one unit of time, then accelerate up to velocity 1. -/
noncomputable def Y : KP := ⟨0, 0, 1 / 2, 1, 2, 1, 1, 1, 0, 0, 1⟩
/-- Along the third axis: rest. -/
noncomputable def Z : KP := ⟨0, 0, 0, 0, 2, 0, 2, 0, 0, 0, 0⟩
/-- The path. -/
noncomputable def B : KB := ⟨X, Y, Z, 2, ⟨0, 0, 0, 1⟩, ⟨0, 0, 0, 1⟩⟩

theorem B_coherent : B.Coherent where
  x := ⟨by norm_num [B, X], by norm_num [B, X], by norm_num [B, X], by norm_num [B, X], by norm_num [B, X], by norm_num [B, X],
    by norm_num [B, X, KP.phases, run, phase]⟩
  y := ⟨by norm_num [B, Y], by norm_num [B, Y], by norm_num [B, Y], by norm_num [B, Y], by norm_num [B, Y], by norm_num [B, Y],
    by norm_num [B, Y, KP.phases, run, phase]⟩
  z := ⟨by norm_num [B, Z], by norm_num [B, Z], by norm_num [B, Z], by norm_num [B, Z], by norm_num [B, Z], by norm_num [B, Z],
    by norm_num [B, Z, KP.phases, run, phase]⟩
  lx := rfl
  ly := rfl
  lz := rfl

theorem norm_x (a : ℝ) (h : 0 < a) : (V3.mk a 0 0).norm = a := by
  simp [V3.norm, V3.sq, Real.sqrt_sq h.le]

theorem norm_y (a : ℝ) (h : 0 < a) : (V3.mk 0 a 0).norm = a := by
  simp [V3.norm, V3.sq, Real.sqrt_sq h.le]

theorem fromX_x (axis : V3 → V3) (a : ℝ) (h : 0 < a) : (fromX (1 / 10) axis ⟨a, 0, 0⟩).w = 1 := by
  have h1 : Real.sqrt ((1 + 1) * 2) = 2 := by
    rw [show ((1 + 1) * 2 : ℝ) = 2 ^ 2 by norm_num]; exact Real.sqrt_sq (by norm_num)
  unfold fromX quatOf
  simp only [V3.dir, norm_x a h, div_self h.ne']
  rw [if_neg (by norm_num)]
  simp only [h1]; norm_num

theorem fromX_y (axis : V3 → V3) (a : ℝ) (h : 0 < a) : (fromX (1 / 10) axis ⟨0, a, 0⟩).w = Real.sqrt 2 / 2 := by
  unfold fromX quatOf
  simp only [V3.dir, norm_y a h, zero_div]
  rw [if_neg (by norm_num)]
  norm_num

/-- Interpolation, only the first component of which matters below. -/
noncomputable def interp (p q : Quat) (u : ℝ) : Quat := ⟨p.w + u * (q.w - p.w), p.x, p.y, p.z⟩

end OEx

open OEx in
/-- Counterexample to "the path goes from `q1` to `q2`": the orientation of the configurations given is replaced, so that the path does not
begin at the configuration it was asked to begin at. -/
theorem C104_steer_counterexample (axis : V3 → V3) : (OP.create (fromX (1 / 10) axis) B false).initial.q ≠ B.q1 := by
  intro h
  have h1 := congrArg Quat.w h
  simp only [OP.initial, OP.create, face, heading] at h1
  have e : (V3.mk B.x.v1 B.y.v1 B.z.v1) = ⟨1, 0, 0⟩ := rfl
  simp only [e, Bool.false_eq_true, if_false] at h1
  rw [if_pos (by rw [norm_x 1 one_pos]; norm_num), fromX_x axis 1 one_pos] at h1
  norm_num [B] at h1

/-- Orientation at a time at which the velocity is zero. -/
theorem eval_rest (F : V3 → Quat) (interp : Quat → Quat → ℝ → Quat) (o : OP) (hi : o.ign = false) (t : ℝ) (hx : (o.base.x.eval t).2 = 0)
    (hy : (o.base.y.eval t).2 = 0) (hz : (o.base.z.eval t).2 = 0) (h0 : ¬ (t = 0 ∨ o.base.len = 0)) (h1 : t ≠ o.base.len) :
    (o.eval F interp t).q = interp o.base.q1 o.base.q2 (t / o.base.len) := by
  have hn : ¬ 0 < (V3.mk 0 0 0).norm := by simp [V3.norm, V3.sq]
  simp only [OP.eval, KB.eval, hx, hy, hz, hi, face, heading, Bool.false_eq_true, if_false, hn, h0, h1]

open OEx in
/-- Counterexample to the last part of C104: when the velocity vanishes during the path, the orientation at that time along a part of the path
is not the one along the whole path. -/
theorem C104_extract_counterexample (axis : V3 → V3) :
    ∃ o', (OP.create (fromX (1 / 10) axis) B false).extract (fromX (1 / 10) axis) interp (1 / 2) 2 = some o' ∧
      (o'.eval (fromX (1 / 10) axis) interp (1 / 2)).q ≠ ((OP.create (fromX (1 / 10) axis) B false).eval (fromX (1 / 10) axis) interp 1).q := by
  have hc := B_coherent
  obtain ⟨X', x1, x2, x3, x4⟩ := C81_extract hc.x (a := 1 / 2) (b := 2) (by norm_num) (by norm_num) (le_of_eq hc.lx.symm)
  obtain ⟨Y', y1, y2, y3, y4⟩ := C81_extract hc.y (a := 1 / 2) (b := 2) (by norm_num) (by norm_num) (le_of_eq hc.ly.symm)
  obtain ⟨Z', z1, z2, z3, z4⟩ := C81_extract hc.z (a := 1 / 2) (b := 2) (by norm_num) (by norm_num) (le_of_eq hc.lz.symm)
  have vx0 : (B.x.eval (1 / 2)).2 = 1 / 2 := by norm_num [B, X, KP.eval]
  have vy0 : (B.y.eval (1 / 2)).2 = 0 := by norm_num [B, Y, KP.eval]
  have vz0 : (B.z.eval (1 / 2)).2 = 0 := by norm_num [B, Z, KP.eval]
  have vx1 : (B.x.eval 1).2 = 0 := by norm_num [B, X, KP.eval]
  have vy1 : (B.y.eval 1).2 = 0 := by norm_num [B, Y, KP.eval]
  have vz1 : (B.z.eval 1).2 = 0 := by norm_num [B, Z, KP.eval]
  have vx2 : (B.x.eval 2).2 = 0 := by norm_num [B, X, KP.eval]
  have vy2 : (B.y.eval 2).2 = 1 := by norm_num [B, Y, KP.eval]
  have vz2 : (B.z.eval 2).2 = 0 := by norm_num [B, Z, KP.eval]
  have hz : (V3.mk 0 0 0).norm = 0 := by simp [V3.norm, V3.sq]
  have fx : ∀ a : ℝ, 0 < a → ∀ q, (face (fromX (1 / 10) axis) false ⟨a, 0, 0⟩ q).w = 1 := by
    intro a ha q
    simp only [face, heading, Bool.false_eq_true, if_false]
    rw [if_pos (by rw [norm_x a ha]; exact ha), fromX_x axis a ha]
  have fy : ∀ a : ℝ, 0 < a → ∀ q, (face (fromX (1 / 10) axis) false ⟨0, a, 0⟩ q).w = Real.sqrt 2 / 2 := by
    intro a ha q
    simp only [face, heading, Bool.false_eq_true, if_false]
    rw [if_pos (by rw [norm_y a ha]; exact ha), fromX_y axis a ha]
  have fz : ∀ q, face (fromX (1 / 10) axis) false ⟨0, 0, 0⟩ q = q := by
    intro q
    simp only [face, heading, Bool.false_eq_true, if_false]
    rw [if_neg (by rw [hz]; norm_num)]
  have ev : ∀ (K : KP), K.Coherent → K.eval 0 = (K.p1, K.v1) := fun K h => (C80_eval h).2.1
  have ee : ∀ (K : KP), K.Coherent → K.eval K.len = (K.p2, K.v2) := fun K h => (C80_eval h).2.2
  have xa : X'.v1 = 1 / 2 := by have := congrArg Prod.snd (x4 0 le_rfl (by norm_num)); rw [ev X' x2, add_zero, vx0] at this; exact this
  have ya : Y'.v1 = 0 := by have := congrArg Prod.snd (y4 0 le_rfl (by norm_num)); rw [ev Y' y2, add_zero, vy0] at this; exact this
  have za : Z'.v1 = 0 := by have := congrArg Prod.snd (z4 0 le_rfl (by norm_num)); rw [ev Z' z2, add_zero, vz0] at this; exact this
  have h32 : (1 / 2 + (2 - 1 / 2) : ℝ) = 2 := by norm_num
  have xb : X'.v2 = 0 := by
    have := congrArg Prod.snd (x4 (2 - 1 / 2) (by norm_num) le_rfl); rw [h32, vx2, ← x3, ee X' x2] at this; exact this
  have yb : Y'.v2 = 1 := by
    have := congrArg Prod.snd (y4 (2 - 1 / 2) (by norm_num) le_rfl); rw [h32, vy2, ← y3, ee Y' y2] at this; exact this
  have zb : Z'.v2 = 0 := by
    have := congrArg Prod.snd (z4 (2 - 1 / 2) (by norm_num) le_rfl); rw [h32, vz2, ← z3, ee Z' z2] at this; exact this
  have h11 : (1 / 2 + 1 / 2 : ℝ) = 1 := by norm_num
  have xm := congrArg Prod.snd (x4 (1 / 2) (by norm_num) (by norm_num)); rw [h11, vx1] at xm
  have ym := congrArg Prod.snd (y4 (1 / 2) (by norm_num) (by norm_num)); rw [h11, vy1] at ym
  have zm := congrArg Prod.snd (z4 (1 / 2) (by norm_num) (by norm_num)); rw [h11, vz1] at zm
  have x1' : (OP.create (fromX (1 / 10) axis) B false).base.x.extract (1 / 2) 2 = .kino X' := x1
  have y1' : (OP.create (fromX (1 / 10) axis) B false).base.y.extract (1 / 2) 2 = .kino Y' := y1
  have z1' : (OP.create (fromX (1 / 10) axis) B false).base.z.extract (1 / 2) 2 = .kino Z' := z1
  refine ⟨_, by unfold OP.extract; rw [if_neg (by norm_num), x1', y1', z1'], ?_⟩
  rw [eval_rest _ _ _ rfl _ xm ym zm (by norm_num [OP.create]) (by norm_num [OP.create]), eval_rest _ _ _ rfl 1 vx1 vy1 vz1 (by norm_num [OP.create, B])
    (by norm_num [OP.create, B])]
  intro h
  have hw := congrArg Quat.w h
  have hbl : B.len = 2 := rfl
  have b1 : B.x.v1 = 1 := rfl
  have b2 : B.y.v1 = 0 := rfl
  have b3 : B.z.v1 = 0 := rfl
  have b4 : B.x.v2 = 0 := rfl
  have b5 : B.y.v2 = 1 := rfl
  have b6 : B.z.v2 = 0 := rfl
  simp only [OP.create, interp, xa, ya, za, xb, yb, zb, b1, b2, b3, b4, b5, b6, hbl, fx (1 / 2) (by norm_num), fy 1 one_pos, fx 1 one_pos] at hw
  have h2 : Real.sqrt 2 < 2 := by
    rw [Real.sqrt_lt' (by norm_num)]; norm_num
  rw [abs_of_pos (by norm_num)] at hw
  norm_num at hw
  linarith

end Verif.Kino
