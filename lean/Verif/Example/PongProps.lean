import Verif.Example.Pong

/-!
C125: the examples `autopong` and `counter`.
-/

namespace Verif.Pong

variable {F : Type}

/-- Specification: a number from 0 to `b`. -/
def Between (f : Floats F) (b x : F) : Prop :=
  x = f.zero ∨ x = b ∨ (f.lt f.zero x = true ∧ f.lt x b = true)

/-- Specification: the score: how often the paddle was hit since the ball was lost, or since the beginning. -/
def scoreOf (os : List Out) : Nat := (os.reverse.takeWhile (· != .lost)).count .hit

/-- The score in this round, and those of the ones before. -/
def count (p : Nat × List Nat) : Out → Nat × List Nat
  | .hit => (p.1 + 1, p.2)
  | .lost => (0, p.2 ++ [p.1])
  | .fly => p

/-- Specification: the scores of all rounds that are over. -/
def scores (os : List Out) : List Nat := (os.foldl count (0, [])).2

theorem run_append (f : Floats F) (w : Walls F) (as bs : List (Act F)) (g : Model F) :
    run f w g (as ++ bs) = ((run f w (run f w g as).1 bs).1, (run f w g as).2 ++ (run f w (run f w g as).1 bs).2) := by
  induction as generalizing g with
  | nil => rfl
  | cons a as ih => simp only [List.cons_append, run, ih, List.append_assoc]

theorem tick_paddle (f : Floats F) (w : Walls F) (g : Model F) (d : F) (s : F × F) : (tick f w g d s).1.paddle = g.paddle := by
  unfold tick
  dsimp only
  split
  · rfl
  · split <;> rfl

/-- C125: the paddle never leaves the window, however the mouse moves (also if that is not a number). -/
theorem C125_paddle {f : Floats F} (hf : f.ok) (w : Walls F) (s : F × F) (as : List (Act F)) :
    Between f f.right (run f w (new f s) as).1.paddle := by
  suffices key : ∀ g : Model F, Between f f.right g.paddle → Between f f.right (run f w g as).1.paddle from
    key _ (.inr (.inr hf.middle))
  induction as with
  | nil => intro g h; exact h
  | cons a as ih =>
    intro g h
    refine ih _ ?_
    cases a with
    | tick d s => exact (tick_paddle f w g d s).symm ▸ h
    | move d =>
      show Between f f.right (f.max f.zero (f.min f.right _))
      generalize f.add g.paddle (f.mul d f.paddleSens) = x
      unfold Floats.max Floats.min
      by_cases hx : f.lt x f.right = true
      · rw [if_pos hx]
        by_cases h0 : f.lt f.zero x = true
        · rw [if_pos h0]; exact .inr (.inr ⟨h0, hx⟩)
        · rw [if_neg h0]; exact .inl rfl
      · rw [if_neg hx, if_pos hf.right]
        exact .inr (.inl rfl)

/-- C125: the animations are never negative. -/
theorem C125_animations {f : Floats F} (hf : f.ok) (w : Walls F) (s : F × F) (as : List (Act F)) :
    f.lt (run f w (new f s) as).1.death f.zero = false ∧ f.lt (run f w (new f s) as).1.bounce f.zero = false := by
  have hz : f.lt f.zero f.zero = false := by
    cases h : f.lt f.zero f.zero with
    | false => rfl
    | true => have := hf.asymm _ _ h; rw [h] at this; exact this
  have hm : ∀ x, f.lt (f.max f.zero x) f.zero = false := by
    intro x
    unfold Floats.max
    split
    · rename_i h; exact hf.asymm _ _ h
    · exact hz
  have h1 : f.lt f.one f.zero = false := hf.asymm _ _ hf.one
  suffices key : ∀ g : Model F, f.lt g.death f.zero = false ∧ f.lt g.bounce f.zero = false →
      f.lt (run f w g as).1.death f.zero = false ∧ f.lt (run f w g as).1.bounce f.zero = false from key _ ⟨hz, hz⟩
  induction as with
  | nil => intro g h; exact h
  | cons a as ih =>
    intro g h
    refine ih _ ?_
    cases a with
    | move d => exact h
    | tick d s =>
      simp only [tick]
      split
      · exact ⟨hm _, h1⟩
      · split
        · exact ⟨h1, hm _⟩
        · exact ⟨hm _, hm _⟩

theorem scores_snoc (os : List Out) (o : Out) :
    scores (os ++ [o]) = scores os ++ (if o = .lost then [scoreOf os] else []) := by
  have key : ∀ (os : List Out), (os.foldl count (0, [])).1 = scoreOf os := by
    intro os
    rw [← List.reverse_reverse os]
    induction os.reverse with
    | nil => rfl
    | cons o l ih =>
      rw [List.reverse_cons, List.foldl_append]
      simp only [scoreOf, List.reverse_append, List.reverse_reverse, List.foldl_cons, List.foldl_nil] at ih ⊢
      cases o
      · simp [count, ih, -List.foldl_reverse]
      · simp [count, -List.foldl_reverse]
      · simp [count, ih, -List.foldl_reverse]
  have hk := key os
  cases o <;> simp [scores, List.foldl_append, hk, count]

/-- C125: the score is the number of times the paddle was hit since the ball was lost, the maximum is the best of all rounds
that are over. -/
theorem C125_score (f : Floats F) (w : Walls F) (s : F × F) (as : List (Act F)) :
    (run f w (new f s) as).1.score = scoreOf (run f w (new f s) as).2 ∧
    (run f w (new f s) as).1.maxScore = (scores (run f w (new f s) as).2).foldl Nat.max 0 := by
  rw [← List.reverse_reverse as]
  induction as.reverse with
  | nil => exact ⟨rfl, rfl⟩
  | cons a l ih =>
    rw [List.reverse_cons, run_append]
    generalize run f w (new f s) l.reverse = r at ih
    obtain ⟨g, os⟩ := r
    dsimp only at ih ⊢
    cases a with
    | move d =>
      simp only [run, update, move, List.append_nil]
      exact ih
    | tick d t =>
      simp only [run, update, List.append_nil]
      have h : ((tick f w g d t).2 = .hit ∧ (tick f w g d t).1.score = g.score + 1 ∧ (tick f w g d t).1.maxScore = g.maxScore) ∨
          ((tick f w g d t).2 = .lost ∧ (tick f w g d t).1.score = 0 ∧
            (tick f w g d t).1.maxScore = Nat.max g.maxScore g.score) ∨
          ((tick f w g d t).2 = .fly ∧ (tick f w g d t).1.score = g.score ∧ (tick f w g d t).1.maxScore = g.maxScore) := by
        unfold tick
        dsimp only
        split
        · exact .inl ⟨rfl, rfl, rfl⟩
        · split
          · exact .inr (.inl ⟨rfl, rfl, rfl⟩)
          · exact .inr (.inr ⟨rfl, rfl, rfl⟩)
      rcases h with ⟨h1, h2, h3⟩ | ⟨h1, h2, h3⟩ | ⟨h1, h2, h3⟩
      · rw [h1, h2, h3, scores_snoc, if_neg (by decide), List.append_nil]
        refine ⟨?_, ih.2⟩
        rw [ih.1]
        simp [scoreOf]
      · rw [h1, h2, h3, scores_snoc, if_pos rfl, List.foldl_append, ← ih.2, ← ih.1]
        exact ⟨by simp [scoreOf], rfl⟩
      · rw [h1, h2, h3, scores_snoc, if_neg (by decide), List.append_nil]
        refine ⟨?_, ih.2⟩
        rw [ih.1]
        simp [scoreOf]

/-- C125: after the paddle was hit the ball goes up: the paddle is not hit again unless the ball has met the top. -/
theorem C125_up {f : Floats F} (hf : f.ok) (w : Walls F) (g : Model F) (d : F) (s : F × F)
    (h : (tick f w g d s).2 = .hit) :
    f.lt (tick f w g d s).1.ballV.2 f.zero = true ∧
    ∀ e t, (∀ b, w.top b = false) → (tick f w (tick f w g d s).1 e t).2 = .fly := by
  have up : f.lt (tick f w g d s).1.ballV.2 f.zero = true := by
    unfold tick at h ⊢
    dsimp only at h ⊢
    split at h
    · rename_i hc
      rw [if_pos hc]
      simp only [Bool.and_eq_true] at hc
      exact hf.grow _ (hf.neg _ hc.1)
    · split at h <;> cases h
  refine ⟨up, fun e t ht => ?_⟩
  generalize (tick f w g d s).1 = g' at up
  have hv : f.lt f.zero (bounceWalls f w g'.ballV (f.add g'.ball.1 (f.mul g'.ballV.1 e), f.add g'.ball.2 (f.mul g'.ballV.2 e))).2
      = false := by
    simp only [bounceWalls, ht, Bool.and_false]
    exact hf.asymm _ _ up
  unfold tick
  dsimp only
  rw [hv]
  rfl

/-- Numbers without fractions, for an example. -/
def exFloats : Floats Int :=
  ⟨fun x y => decide (x < y), (· + ·), (· - ·), (· * ·), (- ·), 0, 1, 700, 2, 1, 1, 3, 1, 1, 350⟩

theorem exFloats_ok : exFloats.ok where
  asymm := by intro x y h; simp only [exFloats, decide_eq_true_eq, decide_eq_false_iff_not] at *; omega
  right := by decide
  one := by decide
  middle := by decide
  neg := by intro x h; simp only [exFloats, decide_eq_true_eq] at *; omega
  grow := by intro x h; simp only [exFloats, decide_eq_true_eq] at *; omega

/-- The ball meets the paddle at 10 if that is on the left, and is lost at 20. -/
def exWalls : Walls Int :=
  ⟨fun b => b.1 ≤ 0, fun b => b.1 ≥ 800, fun b => b.2 ≤ 0, fun a b p => decide (a.2 ≤ 10 ∧ b.2 ≥ 10 ∧ p = 0), fun b => b.2 ≥ 20⟩

/-- The paddle is moved to the left, hits the ball once, and is moved to the right. -/
def exActs : List (Act Int) :=
  [.move (-900), .tick 5 (0, 1), .tick 5 (0, 1), .tick 2 (0, 1), .move 9000, .tick 4 (0, 1), .tick 3 (0, 1), .tick 4 (0, 1)]

example : let r := run exFloats exWalls (new exFloats (5, 5)) exActs
    (r.1.score, r.1.maxScore, r.1.paddle, r.2) = (0, 1, 700, [.hit, .fly, .fly, .fly, .fly, .lost]) := by decide +kernel

end Verif.Pong

namespace Verif.Counter

/-- Specification: what an action adds; `reset` begins anew. -/
def value (c : Int) : List Act → Int
  | [] => c
  | .increment :: as => value (c + 1) as
  | .decrement :: as => value (c - 1) as
  | .reset n :: as => value n as

/-- C125: the counter is the number it was reset to, plus the increments and minus the decrements since then; unless, and only
unless, it would at some point be too large or too small for an `int`. -/
theorem C125_counter (c : Int) (as : List Act) :
    (∀ v, run c as = some v → v = value c as) ∧
    (run c as = none ↔ ∃ bs a cs, as = bs ++ a :: cs ∧ (∀ n, a ≠ .reset n) ∧
      ¬ (-2 ^ 31 ≤ value c (bs ++ [a]) ∧ value c (bs ++ [a]) < 2 ^ 31)) := by
  have fits : ∀ n, isInt n = true ↔ -2 ^ 31 ≤ n ∧ n < 2 ^ 31 := by
    intro n
    simp only [isInt, decide_eq_true_eq]
    omega
  induction as generalizing c with
  | nil =>
    refine ⟨fun v h => (Option.some.inj h).symm, ⟨fun h => (by cases h), ?_⟩⟩
    rintro ⟨bs, a, cs, h, _⟩
    cases bs <;> cases h
  | cons a as ih =>
    -- the first action leads to `d`
    have ok : ∀ d, update c a = some d → (∀ l, value c (a :: l) = value d l) →
        ((∃ n, a = .reset n) ∨ isInt d = true) →
        (∀ v, run c (a :: as) = some v → v = value c (a :: as)) ∧
        (run c (a :: as) = none ↔ ∃ bs b cs, a :: as = bs ++ b :: cs ∧ (∀ n, b ≠ .reset n) ∧
          ¬ (-2 ^ 31 ≤ value c (bs ++ [b]) ∧ value c (bs ++ [b]) < 2 ^ 31)) := by
      intro d hd hv hi
      have hr : run c (a :: as) = run d as := by rw [run, hd]; rfl
      rw [hr, hv]
      refine ⟨(ih d).1, (ih d).2.trans ⟨?_, ?_⟩⟩
      · rintro ⟨bs, b, cs, rfl, h1, h2⟩
        exact ⟨a :: bs, b, cs, rfl, h1, by rw [List.cons_append, hv]; exact h2⟩
      · rintro ⟨bs, b, cs, h, h1, h2⟩
        cases bs with
        | nil =>
          cases h
          rcases hi with ⟨n, rfl⟩ | hi
          · exact absurd rfl (h1 n)
          · rw [List.nil_append, hv] at h2
            exact absurd ((fits d).1 hi) h2
        | cons e bs =>
          cases h
          exact ⟨bs, b, cs, rfl, h1, by rw [List.cons_append, hv] at h2; exact h2⟩
    have bad : update c a = none → (∀ n, a ≠ .reset n) → isInt (value c [a]) = false →
        (∀ v, run c (a :: as) = some v → v = value c (a :: as)) ∧
        (run c (a :: as) = none ↔ ∃ bs b cs, a :: as = bs ++ b :: cs ∧ (∀ n, b ≠ .reset n) ∧
          ¬ (-2 ^ 31 ≤ value c (bs ++ [b]) ∧ value c (bs ++ [b]) < 2 ^ 31)) := by
      intro hn ha hi
      have hr : run c (a :: as) = none := by rw [run, hn]; rfl
      rw [hr]
      refine ⟨fun v h => (by cases h), fun _ => ⟨[], a, as, rfl, ha, fun h => ?_⟩, fun _ => rfl⟩
      rw [List.nil_append] at h
      rw [(fits _).2 h] at hi
      cases hi
    cases a with
    | reset n => exact ok n rfl (fun _ => rfl) (.inl ⟨n, rfl⟩)
    | increment =>
      cases hi : isInt (c + 1) with
      | true => exact ok (c + 1) (by simp [update, toInt, hi]) (fun _ => rfl) (.inr hi)
      | false => exact bad (by simp [update, toInt, hi]) (by intro n h; cases h) hi
    | decrement =>
      cases hi : isInt (c - 1) with
      | true => exact ok (c - 1) (by simp [update, toInt, hi]) (fun _ => rfl) (.inr hi)
      | false => exact bad (by simp [update, toInt, hi]) (by intro n h; cases h) hi

example : run 5 [.increment, .reset 7, .decrement] = some 6 ∧ run 2147483646 [.increment, .increment, .decrement] = none := by
  decide

end Verif.Counter
