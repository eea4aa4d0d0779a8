import Verif.Example.PongHit

/-!
C127: collisions in the autopong example.
-/

namespace Verif.Pong

variable {K : Type} [Field K] [LinearOrder K] [IsStrictOrderedRing K]

/-- C127, specification: `x` is a point of the segment from `p` to `q`. -/
def OnSegment (p q x : Pt K) : Prop :=
  ∃ s, 0 ≤ s ∧ s ≤ 1 ∧ x = (p.1 + s * (q.1 - p.1), p.2 + s * (q.2 - p.2))

/-- C127, specification: the square of the distance of two points. -/
def sq (x y : Pt K) : K := (x.1 - y.1) ^ 2 + (x.2 - y.2) ^ 2

/-- The pair of parameters is where the distance is least: the derivatives point inwards. -/
structure Opt (a b c d e s t : K) : Prop where
  s0 : 0 ≤ s
  s1 : s ≤ 1
  t0 : 0 ≤ t
  t1 : t ≤ 1
  ds : ∀ s', 0 ≤ s' → s' ≤ 1 → 0 ≤ (a * s - b * t + d) * (s' - s)
  dt : ∀ t', 0 ≤ t' → t' ≤ 1 → 0 ≤ (c * t - b * s - e) * (t' - t)

/-- What holds of the numbers after the first part. -/
structure Mid (a b c d e : K) (r : K × K × K × K) : Prop where
  sD : 0 < r.2.1
  s0 : 0 ≤ r.1
  s1 : r.1 ≤ r.2.1
  tD : 0 < r.2.2.2
  t : r.2.2.1 * c = r.2.2.2 * (e + b * (r.1 / r.2.1))
  lo : r.1 / r.2.1 < 1 → b * e - c * d ≤ (a * c - b * b) * (r.1 / r.2.1)
  hi : 0 < r.1 / r.2.1 → (a * c - b * b) * (r.1 / r.2.1) ≤ b * e - c * d

theorem mid_first {ε a b c d e : K} (hε : 0 < ε) (hc : 0 < c) (hD : 0 ≤ a * c - b * b)
    (hpar : a * c - b * b = 0 → b * e = c * d) (hbig : a * c - b * b = 0 ∨ ε ≤ a * c - b * b) :
    Mid a b c d e (firstPart ε a b c d e) := by
  unfold firstPart
  simp only
  split
  · next h =>
    have h0 : a * c - b * b = 0 := by
      rcases hbig with h' | h'
      · exact h'
      · exact absurd h (not_lt.mpr h')
    have := hpar h0
    refine ⟨one_pos, le_rfl, zero_le_one, hc, ?_, ?_, ?_⟩ <;> simp only [zero_div, mul_zero, add_zero]
    · ring
    · intro _; linarith
    · intro h; exact absurd h (lt_irrefl _)
  · next h =>
    have hp : 0 < a * c - b * b := lt_of_lt_of_le hε (not_lt.mp h)
    split
    · next h1 =>
      refine ⟨hp, le_rfl, hD, hc, ?_, ?_, ?_⟩ <;> simp only [zero_div, mul_zero, add_zero]
      · ring
      · intro _; linarith
      · intro h; exact absurd h (lt_irrefl _)
    · next h1 =>
      split
      · next h2 =>
        refine ⟨hp, hD, le_rfl, hc, ?_, ?_, ?_⟩ <;> simp only [div_self hp.ne', mul_one]
        · ring
        · intro h; exact absurd h (lt_irrefl _)
        · intro _; linarith
      · next h2 =>
        have hm : (a * c - b * b) * ((b * e - c * d) / (a * c - b * b)) = b * e - c * d := mul_div_cancel₀ _ hp.ne'
        refine ⟨hp, not_lt.mp h1, not_lt.mp h2, hp, ?_, fun _ => hm.ge, fun _ => hm.le⟩
        show (a * e - b * d) * c = (a * c - b * b) * (e + b * ((b * e - c * d) / (a * c - b * b)))
        rw [mul_add, mul_left_comm, hm]
        ring

/-- The best `s` for a given `t`, at one of the ends. -/
theorem best_s {a g : K} (ha : 0 ≤ a) {n D : K} (hD : 0 < D)
    (h : (g < 0 ∧ n = 0 ∧ D = D) ∨ (a < g ∧ n = D) ∨ (0 ≤ g ∧ g ≤ a ∧ n / D = g / a ∧ 0 < a)) :
    0 ≤ n / D ∧ n / D ≤ 1 ∧ (n / D < 1 → g ≤ a * (n / D)) ∧ (0 < n / D → a * (n / D) ≤ g) := by
  rcases h with ⟨h, rfl, _⟩ | ⟨h, rfl⟩ | ⟨h0, h1, h2, h3⟩
  · simp only [zero_div, mul_zero]
    exact ⟨le_rfl, zero_le_one, fun _ => h.le, fun h => absurd h (lt_irrefl _)⟩
  · rw [div_self hD.ne']
    exact ⟨zero_le_one, le_rfl, fun h => absurd h (lt_irrefl _), fun _ => by linarith⟩
  · rw [h2]
    have : a * (g / a) = g := mul_div_cancel₀ _ h3.ne'
    exact ⟨div_nonneg h0 ha, div_le_one_of_le₀ h1 ha, fun _ => this.ge, fun _ => this.le⟩

/-- From the signs of a derivative to the inequality. -/
theorem inward {s g : K} (lo : s < 1 → 0 ≤ g) (hi : 0 < s → g ≤ 0) {s' : K} (h0' : 0 ≤ s')
    (h1' : s' ≤ 1) : 0 ≤ g * (s' - s) := by
  rcases lt_trichotomy s s' with h | h | h
  · exact mul_nonneg (lo (lt_of_lt_of_le h h1')) (by linarith)
  · simp [h]
  · exact mul_nonneg_of_nonpos_of_nonpos (hi (lt_of_le_of_lt h0' h)) (by linarith)

/-- When the best `t` for `s0` is below zero, it is for the best `s` for `t = 0`, too. -/
theorem stays_below {a b c d e s0 s : K} (hc : 0 < c) (hD : 0 ≤ a * c - b * b) (h : e + b * s0 < 0)
    (h00 : 0 ≤ s0) (h01 : s0 ≤ 1) (hs0 : 0 ≤ s) (hs1 : s ≤ 1)
    (lo0 : s0 < 1 → b * e - c * d ≤ (a * c - b * b) * s0) (hi0 : 0 < s0 → (a * c - b * b) * s0 ≤ b * e - c * d)
    (lo : s < 1 → -d ≤ a * s) (hi : 0 < s → a * s ≤ -d) : e + b * s ≤ 0 := by
  by_contra hn
  have hn := not_le.mp hn
  rcases lt_trichotomy s0 s with hs | hs | hs
  · have hb : 0 < b := by
      by_contra hb
      nlinarith [not_lt.mp hb]
    have h1 := lo0 (lt_of_lt_of_le hs hs1)
    have h2 := hi (lt_of_le_of_lt h00 hs)
    have h3 : (a * c - b * b) * s0 ≤ (a * c - b * b) * s := mul_le_mul_of_nonneg_left hs.le hD
    have h4 : 0 < b * (e + b * s) := mul_pos hb hn
    have h5 : c * (a * s) ≤ c * (-d) := mul_le_mul_of_nonneg_left h2 hc.le
    nlinarith
  · rw [← hs] at hn
    linarith
  · have hb : b < 0 := by
      by_contra hb
      nlinarith [not_lt.mp hb]
    have h1 := hi0 (lt_of_le_of_lt hs0 hs)
    have h2 := lo (lt_of_lt_of_le hs h01)
    have h3 : (a * c - b * b) * s ≤ (a * c - b * b) * s0 := mul_le_mul_of_nonneg_left hs.le hD
    have h4 : b * (e + b * s) < 0 := mul_neg_of_neg_of_pos hb hn
    have h5 : c * (-d) ≤ c * (a * s) := mul_le_mul_of_nonneg_left h2 hc.le
    nlinarith

/-- The choices made in the second part for `t` at an end. -/
theorem pick {a g sD : K} (ha : 0 ≤ a) (hdeg : a = 0 → g = 0) (hsD : 0 < sD) {n D : K}
    (h : (n, D) = if g < 0 then (0, sD) else if g > a then (sD, sD) else (g, a)) :
    0 ≤ n / D ∧ n / D ≤ 1 ∧ (n / D < 1 → g ≤ a * (n / D)) ∧ (0 < n / D → a * (n / D) ≤ g) := by
  split at h
  · next h1 =>
    cases h
    exact best_s ha hsD (.inl ⟨h1, rfl, rfl⟩)
  · next h1 =>
    split at h
    · next h2 =>
      cases h
      exact best_s ha hsD (.inr (.inl ⟨h2, rfl⟩))
    · next h2 =>
      cases h
      rcases ha.eq_or_lt with h0 | h0
      · have := hdeg h0.symm
        subst this
        rw [← h0]
        simp
      · exact best_s ha h0 (.inr (.inr ⟨not_lt.mp h1, not_lt.mp h2, rfl, h0⟩))

theorem opt_second {a b c d e : K} {r : K × K × K × K} (ha : 0 ≤ a) (hc : 0 < c) (hD : 0 ≤ a * c - b * b)
    (hdeg : a = 0 → b = 0 ∧ d = 0) (m : Mid a b c d e r) :
    Opt a b c d e ((secondPart a b d r).1 / (secondPart a b d r).2.1)
      ((secondPart a b d r).2.2.1 / (secondPart a b d r).2.2.2) := by
  obtain ⟨sN, sD, tN, tD⟩ := r
  obtain ⟨hsD, hs0, hs1, htD, ht, lo, hi⟩ := m
  simp only at hsD hs0 hs1 htD ht lo hi
  have q0 : 0 ≤ sN / sD := div_nonneg hs0 hsD.le
  have q1 : sN / sD ≤ 1 := div_le_one_of_le₀ hs1 hsD.le
  by_cases h1 : tN < 0
  · have hneg : e + b * (sN / sD) < 0 := by
      by_contra hn
      nlinarith [mul_nonneg htD.le (not_lt.mp hn), mul_neg_of_neg_of_pos h1 hc]
    have hr : secondPart a b d (sN, sD, tN, tD) =
        ((if -d < 0 then (0, sD) else if -d > a then (sD, sD) else (-d, a)).1,
         (if -d < 0 then (0, sD) else if -d > a then (sD, sD) else (-d, a)).2, 0, tD) := by
      simp only [secondPart, if_pos h1]
      split
      · rfl
      · split <;> rfl
    rw [hr]
    obtain ⟨k0, k1, k2, k3⟩ := pick (n := (if -d < 0 then (0, sD) else if -d > a then (sD, sD) else (-d, a)).1)
      (D := (if -d < 0 then (0, sD) else if -d > a then (sD, sD) else (-d, a)).2) (g := -d) ha
      (fun h => by rw [(hdeg h).2, neg_zero]) hsD rfl
    simp only [zero_div]
    generalize (if -d < 0 then (0, sD) else if -d > a then (sD, sD) else (-d, a)).1 /
      (if -d < 0 then (0, sD) else if -d > a then (sD, sD) else (-d, a)).2 = s at *
    have := stays_below hc hD hneg q0 q1 k0 k1 lo hi k2 k3
    refine ⟨k0, k1, le_rfl, zero_le_one, fun s' => inward (fun h => ?_) (fun h => ?_), fun t' h0 _ => ?_⟩
    · linarith [k2 h]
    · linarith [k3 h]
    · exact mul_nonneg (by linarith) (by linarith)
  · by_cases h2 : tN > tD
    · have hpos : c < e + b * (sN / sD) := by
        by_contra hn
        nlinarith [mul_le_mul_of_nonneg_left (not_lt.mp hn) htD.le, mul_lt_mul_of_pos_right h2 hc]
      have hr : secondPart a b d (sN, sD, tN, tD) =
          ((if -d + b < 0 then (0, sD) else if -d + b > a then (sD, sD) else (-d + b, a)).1,
           (if -d + b < 0 then (0, sD) else if -d + b > a then (sD, sD) else (-d + b, a)).2, tD, tD) := by
        simp only [secondPart, if_neg h1, if_pos h2]
        split
        · rfl
        · split <;> rfl
      rw [hr]
      obtain ⟨k0, k1, k2, k3⟩ := pick (n := (if -d + b < 0 then (0, sD) else if -d + b > a then (sD, sD) else (-d + b, a)).1)
        (D := (if -d + b < 0 then (0, sD) else if -d + b > a then (sD, sD) else (-d + b, a)).2) (g := -d + b) ha
        (fun h => by rw [(hdeg h).1, (hdeg h).2]; simp) hsD rfl
      simp only [div_self htD.ne']
      generalize (if -d + b < 0 then (0, sD) else if -d + b > a then (sD, sD) else (-d + b, a)).1 /
        (if -d + b < 0 then (0, sD) else if -d + b > a then (sD, sD) else (-d + b, a)).2 = s at *
      -- the same as below zero, seen from the other end
      have := stays_below (b := -b) (d := d - b) (e := c - e) (s0 := sN / sD) (s := s) (a := a) hc (by linarith)
        (by linarith) q0 q1 k0 k1 (fun h => by nlinarith [lo h]) (fun h => by nlinarith [hi h])
        (fun h => by linarith [k2 h]) (fun h => by linarith [k3 h])
      refine ⟨k0, k1, zero_le_one, le_rfl, fun s' => inward (fun h => ?_) (fun h => ?_), fun t' _ h1 => ?_⟩
      · linarith [k2 h]
      · linarith [k3 h]
      · exact mul_nonneg_of_nonpos_of_nonpos (by linarith) (by linarith)
    · have hr : secondPart a b d (sN, sD, tN, tD) = (sN, sD, tN, tD) := by
        simp only [secondPart, if_neg h1, if_neg h2]
      rw [hr]
      simp only
      have hz : c * (tN / tD) - b * (sN / sD) - e = 0 := by
        have : tN / tD * c = e + b * (sN / sD) := by
          rw [div_mul_eq_mul_div, ht, mul_div_cancel_left₀ _ htD.ne']
        linarith
      have hg : c * (a * (sN / sD) - b * (tN / tD) + d) = (a * c - b * b) * (sN / sD) - (b * e - c * d) := by
        have : c * (tN / tD) = b * (sN / sD) + e := by linarith
        calc _ = a * c * (sN / sD) - b * (c * (tN / tD)) + c * d := by ring
          _ = _ := by rw [this]; ring
      refine ⟨q0, q1, div_nonneg (not_lt.mp h1) htD.le, div_le_one_of_le₀ (not_lt.mp h2) htD.le,
        fun s' => inward (fun h => ?_) (fun h => ?_), fun t' _ _ => by rw [hz, zero_mul]⟩
      · have := lo h
        by_contra hn
        nlinarith [mul_neg_of_pos_of_neg hc (not_le.mp hn)]
      · have := hi h
        by_contra hn
        nlinarith [mul_pos hc (not_le.mp hn)]

/-- The numbers that the code compares with `epsilon` and divides. -/
def numbers (a b c d e : K) : List K :=
  [0, 1, a * c - b * b, b * e - c * d, -d, -d + b, e, c, e + b, a * e - b * d]

theorem numbers_of (ε a b c d e : K) :
    (secondPart a b d (firstPart ε a b c d e)).1 ∈ numbers a b c d e ∧
    (secondPart a b d (firstPart ε a b c d e)).2.2.1 ∈ numbers a b c d e := by
  unfold firstPart
  simp only
  split
  · simp only [secondPart]
    repeat' split
    all_goals simp [numbers]
  · split
    · simp only [secondPart]
      repeat' split
      all_goals simp [numbers]
    · split
      · simp only [secondPart]
        repeat' split
        all_goals simp [numbers]
      · simp only [secondPart]
        repeat' split
        all_goals simp [numbers]

omit [IsStrictOrderedRing K] in
theorem quot_big {ε n d : K} (h : n = 0 ∨ ε ≤ |n|) : quot ε n d = n / d := by
  unfold quot
  split
  · next hl =>
    rcases h with rfl | h
    · simp
    · exact absurd hl (not_lt.mpr h)
  · rfl

theorem exists_big (l : List K) : ∃ δ, 0 < δ ∧ ∀ ε, ε ≤ δ → ∀ n ∈ l, n = 0 ∨ ε ≤ |n| := by
  induction l with
  | nil => exact ⟨1, one_pos, fun _ _ n h => by cases h⟩
  | cons x xs ih =>
    obtain ⟨δ, h0, h⟩ := ih
    by_cases hx : x = 0
    · refine ⟨δ, h0, fun ε hε n hn => ?_⟩
      rcases List.mem_cons.mp hn with rfl | hn
      · exact .inl hx
      · exact h ε hε n hn
    · refine ⟨min δ |x|, lt_min h0 (abs_pos.mpr hx), fun ε hε n hn => ?_⟩
      rcases List.mem_cons.mp hn with rfl | hn
      · exact .inr (le_trans hε (min_le_right _ _))
      · exact h ε (le_trans hε (min_le_left _ _)) n hn

theorem squares_zero {x y : K} (h : x * x + y * y = 0) : x = 0 ∧ y = 0 := by
  have hx := mul_self_nonneg x
  have hy := mul_self_nonneg y
  exact ⟨mul_self_eq_zero.mp (by linarith), mul_self_eq_zero.mp (by linarith)⟩

theorem squares_nonneg (x y : K) : 0 ≤ x * x + y * y := add_nonneg (mul_self_nonneg x) (mul_self_nonneg y)

theorem first_range {ε a b c d e : K} (hε : 0 < ε) (hc : 0 ≤ c) :
    0 ≤ (firstPart ε a b c d e).1 ∧ (firstPart ε a b c d e).1 ≤ (firstPart ε a b c d e).2.1 ∧
    0 ≤ (firstPart ε a b c d e).2.2.2 := by
  unfold firstPart
  simp only
  split
  · exact ⟨le_rfl, zero_le_one, hc⟩
  · next h =>
    have hp : 0 < a * c - b * b := lt_of_lt_of_le hε (not_lt.mp h)
    split
    · exact ⟨le_rfl, hp.le, hc⟩
    · next h1 =>
      split
      · exact ⟨hp.le, le_rfl, hc⟩
      · next h2 => exact ⟨not_lt.mp h1, not_lt.mp h2, hp.le⟩

theorem second_range {a b d : K} {r : K × K × K × K} (h : 0 ≤ r.1 ∧ r.1 ≤ r.2.1 ∧ 0 ≤ r.2.2.2) :
    (0 ≤ (secondPart a b d r).1 ∧ (secondPart a b d r).1 ≤ (secondPart a b d r).2.1) ∧
    (0 ≤ (secondPart a b d r).2.2.1 ∧ (secondPart a b d r).2.2.1 ≤ (secondPart a b d r).2.2.2) := by
  obtain ⟨sN, sD, tN, tD⟩ := r
  obtain ⟨h0, h1, h2⟩ := h
  simp only at h0 h1 h2
  have h3 : 0 ≤ sD := le_trans h0 h1
  simp only [secondPart]
  repeat' split
  all_goals simp_all

theorem quot_range {ε n d : K} (h : 0 ≤ n ∧ n ≤ d) : 0 ≤ quot ε n d ∧ quot ε n d ≤ 1 := by
  unfold quot
  split
  · exact ⟨le_rfl, zero_le_one⟩
  · exact ⟨div_nonneg h.1 (le_trans h.1 h.2), div_le_one_of_le₀ h.2 (le_trans h.1 h.2)⟩

/-- C127: whatever `epsilon` is used, the result is the square of the distance of two points of the segments: so it is never
less than the distance of the segments. -/
theorem C127_attained {ε : K} (hε : 0 < ε) (p1 p2 q1 q2 : Pt K) :
    ∃ x y, OnSegment p1 p2 x ∧ OnSegment q1 q2 y ∧ segDist ε p1 p2 q1 q2 = sq x y := by
  have hc : 0 ≤ dot (psub q2 q1) (psub q2 q1) := squares_nonneg (psub q2 q1).1 (psub q2 q1).2
  have h := second_range (a := dot (psub p2 p1) (psub p2 p1)) (b := dot (psub p2 p1) (psub q2 q1))
    (d := dot (psub p2 p1) (psub p1 q1))
    (first_range (a := dot (psub p2 p1) (psub p2 p1)) (b := dot (psub p2 p1) (psub q2 q1))
      (d := dot (psub p2 p1) (psub p1 q1)) (e := dot (psub q2 q1) (psub p1 q1)) hε hc)
  unfold segDist
  simp only
  generalize secondPart (dot (psub p2 p1) (psub p2 p1)) (dot (psub p2 p1) (psub q2 q1))
    (dot (psub p2 p1) (psub p1 q1)) (firstPart ε (dot (psub p2 p1) (psub p2 p1)) (dot (psub p2 p1) (psub q2 q1))
      (dot (psub q2 q1) (psub q2 q1)) (dot (psub p2 p1) (psub p1 q1)) (dot (psub q2 q1) (psub p1 q1))) = r at h ⊢
  obtain ⟨s0, s1⟩ := quot_range (ε := ε) h.1
  obtain ⟨t0, t1⟩ := quot_range (ε := ε) h.2
  refine ⟨_, _, ⟨_, s0, s1, rfl⟩, ⟨_, t0, t1, rfl⟩, ?_⟩
  generalize quot ε r.1 r.2.1 = S
  generalize quot ε r.2.2.1 r.2.2.2 = T
  simp only [dot, psub, sq]
  ring

/-- C127: the result is the square of the distance of the segments, when the second one, the paddle, is not just a point,
and `epsilon` is small enough for the four points: no pair of points of the segments is closer. -/
theorem C127_exact (p1 p2 q1 q2 : Pt K) (hq : q1 ≠ q2) :
    ∃ δ, 0 < δ ∧ ∀ ε, 0 < ε → ε ≤ δ → ∀ x y, OnSegment p1 p2 x → OnSegment q1 q2 y →
      segDist ε p1 p2 q1 q2 ≤ sq x y := by
  obtain ⟨p1x, p1y⟩ := p1
  obtain ⟨p2x, p2y⟩ := p2
  obtain ⟨q1x, q1y⟩ := q1
  obtain ⟨q2x, q2y⟩ := q2
  obtain ⟨u1, hu1⟩ : ∃ u, u = p2x - p1x := ⟨_, rfl⟩
  obtain ⟨u2, hu2⟩ : ∃ u, u = p2y - p1y := ⟨_, rfl⟩
  obtain ⟨v1, hv1⟩ : ∃ u, u = q2x - q1x := ⟨_, rfl⟩
  obtain ⟨v2, hv2⟩ : ∃ u, u = q2y - q1y := ⟨_, rfl⟩
  obtain ⟨w1, hw1⟩ : ∃ u, u = p1x - q1x := ⟨_, rfl⟩
  obtain ⟨w2, hw2⟩ : ∃ u, u = p1y - q1y := ⟨_, rfl⟩
  obtain ⟨a, ha⟩ : ∃ a, a = u1 * u1 + u2 * u2 := ⟨_, rfl⟩
  obtain ⟨b, hb⟩ : ∃ a, a = u1 * v1 + u2 * v2 := ⟨_, rfl⟩
  obtain ⟨c, hc⟩ : ∃ a, a = v1 * v1 + v2 * v2 := ⟨_, rfl⟩
  obtain ⟨d, hd⟩ : ∃ a, a = u1 * w1 + u2 * w2 := ⟨_, rfl⟩
  obtain ⟨e, he⟩ : ∃ a, a = v1 * w1 + v2 * w2 := ⟨_, rfl⟩
  obtain ⟨δ, hδ, hbig⟩ := exists_big (numbers a b c d e)
  refine ⟨δ, hδ, fun ε hε hle => ?_⟩
  have hbig := hbig ε hle
  have a0 : 0 ≤ a := by rw [ha]; exact squares_nonneg _ _
  have c0 : 0 < c := by
    rcases lt_or_eq_of_le (show 0 ≤ c by rw [hc]; exact squares_nonneg _ _) with h | h
    · exact h
    · obtain ⟨h1, h2⟩ := squares_zero (hc.symm.trans h.symm)
      exact absurd (Prod.ext (by show q1x = q2x; linarith) (by show q1y = q2y; linarith)) hq
  have hDsq : a * c - b * b = (u1 * v2 - u2 * v1) * (u1 * v2 - u2 * v1) := by rw [ha, hb, hc]; ring
  have D0 : 0 ≤ a * c - b * b := by rw [hDsq]; exact mul_self_nonneg _
  have hpar : a * c - b * b = 0 → b * e = c * d := by
    intro h
    rw [hDsq] at h
    have h := mul_self_eq_zero.mp h
    have : b * e - c * d = (u1 * v2 - u2 * v1) * (v1 * w2 - v2 * w1) := by rw [hb, hc, hd, he]; ring
    rw [h, zero_mul] at this
    linarith
  have hdeg : a = 0 → b = 0 ∧ d = 0 := by
    intro h
    obtain ⟨h1, h2⟩ := squares_zero (ha.symm.trans h)
    rw [hb, hd, h1, h2]
    simp
  have hD' : a * c - b * b = 0 ∨ ε ≤ a * c - b * b := by
    have := hbig (a * c - b * b) (by simp [numbers])
    rwa [abs_of_nonneg D0] at this
  have o := opt_second a0 c0 D0 hdeg (mid_first hε c0 D0 hpar hD')
  obtain ⟨n1, n2⟩ := numbers_of ε a b c d e
  have e1 := quot_big (d := (secondPart a b d (firstPart ε a b c d e)).2.1) (hbig _ n1)
  have e2 := quot_big (d := (secondPart a b d (firstPart ε a b c d e)).2.2.2) (hbig _ n2)
  rw [← e1, ← e2] at o
  rintro x y ⟨s, s0, s1, rfl⟩ ⟨t, t0, t1, rfl⟩
  have e3 : segDist ε (p1x, p1y) (p2x, p2y) (q1x, q1y) (q2x, q2y) =
      (w1 + u1 * quot ε (secondPart a b d (firstPart ε a b c d e)).1 (secondPart a b d (firstPart ε a b c d e)).2.1 -
        v1 * quot ε (secondPart a b d (firstPart ε a b c d e)).2.2.1 (secondPart a b d (firstPart ε a b c d e)).2.2.2) ^ 2 +
      (w2 + u2 * quot ε (secondPart a b d (firstPart ε a b c d e)).1 (secondPart a b d (firstPart ε a b c d e)).2.1 -
        v2 * quot ε (secondPart a b d (firstPart ε a b c d e)).2.2.1 (secondPart a b d (firstPart ε a b c d e)).2.2.2) ^ 2 := by
    simp only [segDist, psub, dot, ← hu1, ← hu2, ← hv1, ← hv2, ← hw1, ← hw2, ← ha, ← hb, ← hc, ← hd, ← he]
    ring
  rw [e3]
  generalize quot ε (secondPart a b d (firstPart ε a b c d e)).1 (secondPart a b d (firstPart ε a b c d e)).2.1 = S at *
  generalize quot ε (secondPart a b d (firstPart ε a b c d e)).2.2.1 (secondPart a b d (firstPart ε a b c d e)).2.2.2 = T at *
  have k1 := o.ds s s0 s1
  have k2 := o.dt t t0 t1
  have k3 : sq (p1x + s * (p2x - p1x), p1y + s * (p2y - p1y)) (q1x + t * (q2x - q1x), q1y + t * (q2y - q1y)) =
      (w1 + u1 * s - v1 * t) ^ 2 + (w2 + u2 * s - v2 * t) ^ 2 := by
    rw [hu1, hu2, hv1, hv2, hw1, hw2]
    simp only [sq]
    ring
  rw [k3]
  have k4 : (w1 + u1 * s - v1 * t) ^ 2 + (w2 + u2 * s - v2 * t) ^ 2 =
      ((w1 + u1 * S - v1 * T) ^ 2 + (w2 + u2 * S - v2 * T) ^ 2) +
      2 * ((a * S - b * T + d) * (s - S)) + 2 * ((c * T - b * S - e) * (t - T)) +
      ((u1 * (s - S) - v1 * (t - T)) ^ 2 + (u2 * (s - S) - v2 * (t - T)) ^ 2) := by
    rw [ha, hb, hc, hd, he]
    ring
  rw [k4]
  linarith [sq_nonneg (u1 * (s - S) - v1 * (t - T)), sq_nonneg (u2 * (s - S) - v2 * (t - T))]

/-- C127: FALSE when the second segment is a point: only the start of the first segment is compared with it. -/
theorem C127_point_false : segDist (1 / 100000000 : ℚ) (0, 0) (10, 0) (5, 0) (5, 0) = 25 ∧
    OnSegment (0, 0) (10, 0) ((5, 0) : Pt ℚ) := by
  refine ⟨by decide +kernel, 1 / 2, by norm_num, by norm_num, by norm_num⟩

/-- C127: FALSE for small segments, with the `epsilon` of the code: these two cross each other. -/
theorem C127_small_false : ∃ x : Pt ℚ, OnSegment (K := ℚ) (0, -1 / 400) (0, 1 / 400) x ∧
    OnSegment (K := ℚ) (-1 / 400, 0) (1 / 400, 0) x ∧
    segDist (1 / 100000000 : ℚ) (0, -1 / 400) (0, 1 / 400) (-1 / 400, 0) (1 / 400, 0) = 1 / 160000 := by
  refine ⟨(0, 0), ⟨1 / 2, by norm_num, by norm_num, by norm_num⟩, ⟨1 / 2, by norm_num, by norm_num, by norm_num⟩,
    by decide +kernel⟩

/-- C127: exact numbers are numbers as C125 wants them. -/
theorem C127_floats : (exactFloats K).ok where
  asymm x y h := by
    simp only [exactFloats, decide_eq_true_eq, decide_eq_false_iff_not] at *
    exact not_lt.mpr h.le
  right := by simp only [exactFloats, decide_eq_true_eq]; norm_num
  one := by simp only [exactFloats, decide_eq_true_eq]; norm_num
  middle := by simp only [exactFloats, decide_eq_true_eq]; norm_num
  neg x h := by
    simp only [exactFloats, decide_eq_true_eq] at *
    linarith
  grow x h := by
    simp only [exactFloats, decide_eq_true_eq] at *
    linarith

/-- C127, specification: where the ball is going to be. -/
def goesTo (g : Model K) (delta : K) : Pt K := (g.ball.1 + g.ballV.1 * delta, g.ball.2 + g.ballV.2 * delta)

/-- C127, specification: the ball, on its way, comes closer to the paddle than its radius 4.  The paddle is the line at
height 550, 100 wide, with the radius of the ball added at both ends. -/
def Touches (g : Model K) (delta : K) : Prop :=
  ∃ x y : Pt K, OnSegment g.ball (goesTo g delta) x ∧ y.2 = 550 ∧ g.paddle - 4 ≤ y.1 ∧ y.1 ≤ g.paddle + 104 ∧ sq x y < 4 ^ 2

theorem touches_iff (g : Model K) (delta : K) : Touches g delta ↔
    ∃ x y : Pt K, OnSegment g.ball (goesTo g delta) x ∧
      OnSegment (g.paddle - 4, 600 - 2 * 20 - 10) (g.paddle + 100 + 4, 600 - 2 * 20 - 10) y ∧ sq x y < 4 * 4 := by
  constructor
  · rintro ⟨x, ⟨y1, y2⟩, hx, rfl, h0, h1, h⟩
    simp only at h0 h1
    refine ⟨x, _, hx, ⟨(y1 - (g.paddle - 4)) / 108, div_nonneg (by linarith) (by norm_num),
      div_le_one_of_le₀ (by linarith) (by norm_num), rfl⟩, ?_⟩
    have : ((g.paddle - 4, 600 - 2 * 20 - 10) : Pt K).1 + (y1 - (g.paddle - 4)) / 108 *
        (((g.paddle + 100 + 4, 600 - 2 * 20 - 10) : Pt K).1 - ((g.paddle - 4, 600 - 2 * 20 - 10) : Pt K).1) = y1 := by
      field_simp
      ring
    rw [this]
    simp only [sq] at *
    norm_num at *
    linarith
  · rintro ⟨x, y, hx, ⟨s, s0, s1, rfl⟩, h⟩
    refine ⟨x, _, hx, ?_, ?_, ?_, lt_of_lt_of_eq h (by norm_num)⟩ <;> simp only
    · ring
    · nlinarith
    · nlinarith

theorem tick_hit {ε : K} {g : Model K} {delta : K} {start : Pt K} :
    (tick (exactFloats K) (exactWalls ε) g delta start).2 = .hit ↔
      0 < (bounceWalls (exactFloats K) (exactWalls ε) g.ballV (goesTo g delta)).2 ∧
      segDist ε g.ball (goesTo g delta) (g.paddle - 4, 600 - 2 * 20 - 10) (g.paddle + 100 + 4, 600 - 2 * 20 - 10) < 4 * 4 := by
  unfold tick
  simp only
  split
  · next h =>
    simp only [true_iff]
    simpa [exactFloats, exactWalls, goesTo] using h
  · next h =>
    constructor
    · intro h'
      split at h' <;> cases h'
    · intro h'
      refine absurd ?_ h
      simpa [exactFloats, exactWalls, goesTo] using h'

/-- C127: after a tick in which the ball neither meets the paddle nor is lost, the ball has gone straight on, no faster or
slower than before; where it is at a wall then it does not go on into it, and where it is not it keeps its direction. -/
theorem C127_walls {ε : K} {g : Model K} {delta : K} {start : Pt K}
    (h : (tick (exactFloats K) (exactWalls ε) g delta start).2 = .fly) :
    (tick (exactFloats K) (exactWalls ε) g delta start).1.ball = goesTo g delta ∧
    ∀ v, v = (tick (exactFloats K) (exactWalls ε) g delta start).1.ballV →
      |v.1| = |g.ballV.1| ∧ |v.2| = |g.ballV.2| ∧
      ((goesTo g delta).1 - 4 ≤ 20 → (goesTo g delta).1 + 4 < 780 → 0 ≤ v.1) ∧
      (780 ≤ (goesTo g delta).1 + 4 → 20 < (goesTo g delta).1 - 4 → v.1 ≤ 0) ∧
      ((goesTo g delta).2 - 4 ≤ 20 → 0 ≤ v.2) ∧
      (20 < (goesTo g delta).1 - 4 → (goesTo g delta).1 + 4 < 780 → v.1 = g.ballV.1) ∧
      (20 < (goesTo g delta).2 - 4 → v.2 = g.ballV.2) := by
  have key : (tick (exactFloats K) (exactWalls ε) g delta start).1.ball = goesTo g delta ∧
      (tick (exactFloats K) (exactWalls ε) g delta start).1.ballV =
        bounceWalls (exactFloats K) (exactWalls ε) g.ballV (goesTo g delta) := by
    unfold tick at h ⊢
    dsimp only at h ⊢
    split at h
    · cases h
    · rename_i h1
      rw [if_neg h1]
      split at h
      · cases h
      · rename_i h2
        rw [if_neg h2]
        exact ⟨rfl, rfl⟩
  obtain ⟨k1, k2⟩ := key
  refine ⟨k1, ?_⟩
  rintro v rfl
  rw [k2]
  generalize goesTo g delta = b
  obtain ⟨vx, vy⟩ := g.ballV
  simp only [bounceWalls, exactFloats, exactWalls, Bool.or_eq_true, Bool.and_eq_true, decide_eq_true_eq, ge_iff_le]
  refine ⟨?_, ?_, ?_, ?_, ?_, ?_, ?_⟩
  · split
    · exact abs_neg _
    · rfl
  · split
    · exact abs_neg _
    · rfl
  · intro h1 h2
    split
    · rename_i h3
      rcases h3 with h3 | h3
      · linarith [h3.1]
      · linarith [h3.2]
    · rename_i h3
      by_contra h4
      exact h3 (.inl ⟨not_le.mp h4, h1⟩)
  · intro h1 h2
    split
    · rename_i h3
      rcases h3 with h3 | h3
      · linarith [h3.2]
      · linarith [h3.1]
    · rename_i h3
      by_contra h4
      exact h3 (.inr ⟨not_le.mp h4, by linarith⟩)
  · intro h1
    split
    · rename_i h3; linarith [h3.1]
    · rename_i h3
      by_contra h4
      exact h3 ⟨not_le.mp h4, h1⟩
  · intro h1 h2
    rw [if_neg]
    rintro (h3 | h3) <;> linarith [h3.2]
  · intro h1
    rw [if_neg]
    rintro h3
    linarith [h3.2]

/-- A ball that meets the left wall. -/
example : (tick (exactFloats ℚ) (exactWalls (1 / 100000000)) ⟨0, 0, (25, 300), (-1, -1), 400, 0, 0⟩ 5 (0, 0)).2 = .fly ∧
    (tick (exactFloats ℚ) (exactWalls (1 / 100000000)) ⟨0, 0, (25, 300), (-1, -1), 400, 0, 0⟩ 5 (0, 0)).1.ballV = (1, -1) := by
  decide +kernel

/-- C127: the score is counted only when the ball touches the paddle on its way down. -/
theorem C127_hit {ε : K} (hε : 0 < ε) {g : Model K} {delta : K} {start : Pt K}
    (h : (tick (exactFloats K) (exactWalls ε) g delta start).2 = .hit) : Touches g delta := by
  obtain ⟨_, h⟩ := tick_hit.mp h
  obtain ⟨x, y, hx, hy, he⟩ := C127_attained hε g.ball (goesTo g delta) (g.paddle - 4, 600 - 2 * 20 - 10)
    (g.paddle + 100 + 4, 600 - 2 * 20 - 10)
  exact (touches_iff g delta).mpr ⟨x, y, hx, hy, he ▸ h⟩

/-- C127: however fast it is, a ball that goes down does not pass through the paddle: if it touches the paddle anywhere on its
way, that is noticed, with any small enough `epsilon`. -/
theorem C127_passes {g : Model K} {delta : K} (hv : 0 < g.ballV.2) (ht : Touches g delta) :
    ∃ δ, 0 < δ ∧ ∀ ε, 0 < ε → ε ≤ δ → ∀ start, (tick (exactFloats K) (exactWalls ε) g delta start).2 = .hit := by
  obtain ⟨x, y, hx, hy, h⟩ := (touches_iff g delta).mp ht
  obtain ⟨δ, h0, hd⟩ := C127_exact g.ball (goesTo g delta) (g.paddle - 4, 600 - 2 * 20 - 10)
    (g.paddle + 100 + 4, 600 - 2 * 20 - 10) (by
      intro h
      have := congrArg Prod.fst h
      simp only at this
      linarith)
  refine ⟨δ, h0, fun ε hε hle start => tick_hit.mpr ⟨?_, lt_of_le_of_lt (hd ε hε hle x y hx hy) h⟩⟩
  have : ¬ g.ballV.2 < 0 := not_lt.mpr hv.le
  simp [bounceWalls, exactFloats, this, hv]

/-- C127: FALSE with the `epsilon` of the code: when a tick is very short, a ball that passes through the middle of the paddle
is not noticed. -/
theorem C127_tick_false : ∃ (g : Model ℚ) (delta : ℚ), 0 < delta ∧ 0 < g.ballV.2 ∧ g.ball.1 = g.paddle + 50 ∧
    g.ball.2 < 550 ∧ 550 < (goesTo g delta).2 ∧ Touches g delta ∧
    (tick (exactFloats ℚ) (exactWalls (1 / 100000000)) g delta (0, 0)).2 = .fly := by
  refine ⟨⟨0, 0, (400, 550 - 5 / 10000000), (2 / 10, 2 / 10), 350, 0, 0⟩, 5 / 1000000, by norm_num, by norm_num, by norm_num,
    by norm_num, by norm_num [goesTo], ⟨(400, 550 - 5 / 10000000), (400, 550), ⟨0, le_rfl, zero_le_one, by norm_num⟩, rfl,
      by norm_num, by norm_num, by norm_num [sq]⟩, by decide +kernel⟩

-- a ball that is above the paddle before a tick and far below after it
example : (tick (exactFloats ℚ) (exactWalls (1 / 100000000)) ⟨0, 0, (400, 500), (2 / 10, 2 / 10), 350, 0, 0⟩ 1000 (0, 0)).2 =
    .hit := by decide +kernel

-- and one that passes beside it
example : (tick (exactFloats ℚ) (exactWalls (1 / 100000000)) ⟨0, 0, (100, 500), (2 / 10, 2 / 10), 350, 0, 0⟩ 300 (0, 0)).2 =
    .fly := by decide +kernel

end Verif.Pong
