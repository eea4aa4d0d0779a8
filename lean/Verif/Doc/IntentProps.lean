import Verif.Doc.Intent
import Verif.Store.Props
import Verif.Store.SafeQ
import Verif.Store.PromiseReach

/-!
C129: intent that is delivered by effects.
-/

namespace Verif.Doc

open Verif.Store

variable {A C Mo : Type}

/-! ### Vocabulary -/

/-- A store whose reducer turns commands `C` into actions `A` with `parse`, and delivers these by an effect.  A command for
which the reducer throws gives no action. -/
structure Intends (k : Coding A) (r : Mo → A → Mo) (parse : C → Option A) (c : Cfg (A ⊕ C) Mo) : Prop where
  sound : c.sound
  trans : c.trans = false
  act : ∀ m a, c.reducer m (.inl a) = (r m a, .noop) ∧ c.throws m (.inl a) = false
  cmd : ∀ m x, c.throws m (.inr x) = false → c.reducer m (.inr x) =
    (m, match parse x with
      | none => .noop
      | some a => .prim (k.code a))
  bad : ∀ m x, c.throws m (.inr x) = true → parse x = none

/-- The loop has no tasks and no effect is running. -/
def Rests (st : St A Mo) : Prop := st.queue = [] ∧ st.ev = []

/-- The runs of a program: `outs` has been dispatched from outside of the effects, when `W` was true.  The code of an effect
dispatches its action and returns.  No effect runs the loop, and no watcher throws. -/
inductive Runs (k : Coding A) (c : Cfg (A ⊕ C) Mo) (W : St (A ⊕ C) Mo → Prop) : List (A ⊕ C) → St (A ⊕ C) Mo → Prop
  | start : Runs k c W [] (start c)
  | outside {outs st st'} (x : A ⊕ C) : Runs k c W outs st → W st → step c st (.dispatch x) = some st' →
    Runs k c W (outs ++ [x]) st'
  | loop {outs st st'} : Runs k c W outs st → st.ev = [] → step c st .loop = some st' → Runs k c W outs st'
  | other {outs st st'} (l : Nat) : Runs k c W outs st → step c st (.other l) = some st' → Runs k c W outs st'
  | fut {outs st st'} (op : Future.Op) : Runs k c W outs st → step c st (.fut op) = some st' → Runs k c W outs st'
  | go {outs st st'} (n : Nat) : Runs k c W outs st → step c st (.go n) = some st' → Runs k c W outs st'
  | effect {outs st st1 st2} {f : EF} (n id : Nat) : Runs k c W outs st → st.ev[n]? = some f → f.mode = .prim id →
    step c st (.dispatch (.inl (k.dec id))) = some st1 → step c st1 (.prim n none) = some st2 → Runs k c W outs st2

/-- What has been dispatched from outside is `outs`; the actions `p` of its commands wait, in order, and the actions `l` have
been handled: actions at once, those of commands at any later time, in the order of the commands. -/
inductive Delivered (parse : C → Option A) : List (A ⊕ C) → List A → List A → Prop
  | start : Delivered parse [] [] []
  | act {outs p l} (a : A) : Delivered parse outs p l → Delivered parse (outs ++ [.inl a]) p (l ++ [a])
  | cmd {outs p l} (x : C) : Delivered parse outs p l → Delivered parse (outs ++ [.inr x]) (p ++ (parse x).toList) l
  | deliver {outs p l} (a : A) : Delivered parse outs (a :: p) l → Delivered parse outs p (l ++ [a])

/-- The reducer that handles the action of a command at once. -/
def directly (r : Mo → A → Mo) (parse : C → Option A) (m : Mo) : A ⊕ C → Mo
  | .inl a => r m a
  | .inr x => match parse x with
    | some a => r m a
    | none => m

/-- The actions that are no commands. -/
def actions (l : List (A ⊕ C)) : List A := l.filterMap Sum.getLeft?

/-! ### Proofs -/

def effA (k : Coding A) : Eff → List A
  | .prim id => [k.dec id]
  | _ => []

def evA (k : Coding A) (f : EF) : List A :=
  match f.mode with
  | .call e => effA k e
  | .prim id => [k.dec id]
  | .got _ => []

def queuedEffs (k : Coding A) : List (Item (A ⊕ C)) → List A
  | [] => []
  | .effect _ e _ :: q => effA k e ++ queuedEffs k q
  | _ :: q => queuedEffs k q

def queuedCmds (parse : C → Option A) : List (Item (A ⊕ C)) → List A
  | [] => []
  | .reduce _ (.inr x) _ :: q => (parse x).toList ++ queuedCmds parse q
  | _ :: q => queuedCmds parse q

def Plain : Eff → Prop
  | .noop => True
  | .prim _ => True
  | _ => False

def FrameOk (f : EF) : Prop :=
  f.ks = [] ∧ (∃ d i, f.k = .store d i) ∧ ∀ e, f.mode = .call e → Plain e

structure Ok (st : St (A ⊕ C) Mo) : Prop where
  tag : ∀ t, st.tag t = none
  ev : ∀ f ∈ st.ev, FrameOk f
  one : st.ev.length ≤ 1
  queue : ∀ d e i, Item.effect d e i ∈ st.queue → Plain e

def waiting (k : Coding A) (parse : C → Option A) (st : St (A ⊕ C) Mo) : List A :=
  st.ev.flatMap (evA k) ++ queuedEffs k st.queue ++ queuedCmds parse st.queue

theorem queuedEffs_append (k : Coding A) (q r : List (Item (A ⊕ C))) :
    queuedEffs k (q ++ r) = queuedEffs k q ++ queuedEffs k r := by
  induction q with
  | nil => rfl
  | cons x q ih => cases x <;> simp [queuedEffs, ih]

theorem queuedCmds_append (parse : C → Option A) (q r : List (Item (A ⊕ C))) :
    queuedCmds parse (q ++ r) = queuedCmds parse q ++ queuedCmds parse r := by
  induction q with
  | nil => rfl
  | cons x q ih =>
    rcases x with ⟨_, _ | _, _⟩ | _ | _ | _ <;> simp [queuedCmds, ih]

theorem queuedEffs_toks (k : Coding A) (n : Nat) : queuedEffs k (List.replicate n (Item.tok : Item (A ⊕ C))) = [] := by
  induction n with
  | zero => rfl
  | succ n ih => simp [List.replicate_succ, queuedEffs, ih]

theorem queuedCmds_toks (parse : C → Option A) (n : Nat) :
    queuedCmds parse (List.replicate n (Item.tok : Item (A ⊕ C))) = [] := by
  induction n with
  | zero => rfl
  | succ n ih => simp [List.replicate_succ, queuedCmds, ih]

/-- Only marks for closures were posted. -/
structure Quiets (st s1 : St (A ⊕ C) Mo) : Prop where
  tag : s1.tag = st.tag
  ev : s1.ev = st.ev
  log : s1.log = st.log
  queue : ∃ n, s1.queue = st.queue ++ List.replicate n .tok

theorem fstep_quiets {st s1 : St (A ⊕ C) Mo} {op : Future.Op} (h : st.fstep op = some s1) : Quiets st s1 := by
  simp only [St.fstep, Option.map_eq_some_iff] at h
  obtain ⟨fu, _, rfl⟩ := h
  exact ⟨rfl, rfl, rfl, _, rfl⟩

theorem complete_quiets {c : Cfg (A ⊕ C) Mo} {st s1 : St (A ⊕ C) Mo} {i : Nat} (h : st.complete c i = some s1) :
    Quiets st s1 := by
  unfold St.complete at h
  split at h
  · exact fstep_quiets h
  · cases h; exact ⟨rfl, rfl, rfl, 0, by simp⟩

theorem Quiets.ok {st s1 : St (A ⊕ C) Mo} (h : Quiets st s1) (o : Ok st) : Ok s1 := by
  obtain ⟨n, hq⟩ := h.queue
  refine ⟨by rw [h.tag]; exact o.tag, by rw [h.ev]; exact o.ev, by rw [h.ev]; exact o.one, ?_⟩
  intro d e i hm
  rw [hq, List.mem_append] at hm
  rcases hm with hm | hm
  · exact o.queue d e i hm
  · cases (List.mem_replicate.mp hm).2

theorem Quiets.waiting {k : Coding A} {parse : C → Option A} {st s1 : St (A ⊕ C) Mo} (h : Quiets st s1) :
    waiting k parse s1 = waiting k parse st := by
  obtain ⟨n, hq⟩ := h.queue
  simp [Doc.waiting, hq, h.ev, queuedEffs_append, queuedCmds_append, queuedEffs_toks, queuedCmds_toks]

theorem runTask_quiets {st s1 : St (A ⊕ C) Mo} {l : Nat} (o : Ok st) (h : st.runTask l = some s1) : Quiets st s1 := by
  unfold St.runTask at h
  split at h
  · cases h
  · simp only [o.tag, Option.map_eq_some_iff] at h
    obtain ⟨s, hs, rfl⟩ := h
    exact fstep_quiets hs

theorem step_dispatch {k : Coding A} {parse : C → Option A} {c : Cfg (A ⊕ C) Mo} {st st' : St (A ⊕ C) Mo} (o : Ok st)
    {x : A ⊕ C} (h : step c st (.dispatch x) = some st') :
    Ok st' ∧ st'.ev = st.ev ∧ dispatches st'.log = dispatches st.log ++ [x] ∧
    waiting k parse st' = waiting k parse st ++ queuedCmds parse [.reduce 0 x 0] := by
  simp only [step, St.dispatch, Option.map_eq_some_iff] at h
  obtain ⟨s, hs, rfl⟩ := h
  have q := fstep_quiets hs
  have ho := q.ok o
  have hw := q.waiting (k := k) (parse := parse)
  refine ⟨⟨ho.tag, ho.ev, ho.one, ?_⟩, q.ev, ?_, ?_⟩
  · intro d e i hm
    simp only [St.say, St.post, List.mem_append, List.mem_singleton] at hm
    rcases hm with hm | hm
    · exact ho.queue d e i hm
    · cases hm
  · simp [St.say, St.post, dispatches_append, dispatches, q.log]
  · rw [← hw]
    rcases x with _ | _ <;>
    simp [Doc.waiting, St.say, St.post, queuedEffs_append, queuedCmds_append, queuedEffs, queuedCmds]

theorem publish_rest (c : Cfg (A ⊕ C) Mo) (st : St (A ⊕ C) Mo) : (st.publish c).tag = st.tag ∧
    (st.publish c).queue = st.queue ∧ (st.publish c).ev = st.ev ∧
    dispatches (st.publish c).log = dispatches st.log := by
  obtain ⟨_, _, h1, h2, es, h3, h4⟩ := publish_fields c st
  refine ⟨?_, h1, h2, ?_⟩
  · unfold St.publish St.notify St.sendDown
    split
    · rfl
    · split <;> split <;> rfl
  · rw [h3, dispatches_append]
    have : dispatches es = [] := by
      clear h3
      induction es with
      | nil => rfl
      | cons e es ih =>
        obtain ⟨v, rfl⟩ := h4 e (by simp)
        simpa [dispatches] using ih fun e he => h4 e (by simp [he])
    simp [this]

/-- A task that reduces an action is taken from the queue. -/
theorem Ok.tail {st : St (A ⊕ C) Mo} (o : Ok st) {x : Item (A ⊕ C)} {q : List (Item (A ⊕ C))} (hq : st.queue = x :: q) :
    ∀ d e i, Item.effect d e i ∈ q → Plain e :=
  fun d e i h => o.queue d e i (by rw [hq]; exact List.mem_cons_of_mem _ h)

/-- One task of the loop. -/
theorem step_loop {k : Coding A} {r : Mo → A → Mo} {parse : C → Option A} {c : Cfg (A ⊕ C) Mo}
    (hc : Intends k r parse c) {st st' : St (A ⊕ C) Mo} (o : Ok st) (he : st.ev = [])
    (h : step c st .loop = some st') :
    Ok st' ∧ dispatches st'.log = dispatches st.log ∧ waiting k parse st' = waiting k parse st := by
  simp only [step, St.loop] at h
  split at h
  · cases h
  · rename_i d x i q hq
    split at h
    · rename_i ht
      cases h
      refine ⟨⟨o.tag, o.ev, o.one, o.tail hq⟩, by simp [St.say, dispatches_append, dispatches], ?_⟩
      rcases x with a | x
      · rw [(hc.act _ _).2] at ht; cases ht
      · simp [Doc.waiting, St.say, hq, queuedEffs, queuedCmds, hc.bad _ _ ht]
    · rename_i ht
      have ht : c.throws st.cur x = false := by simpa using ht
      have key : ∃ e m', c.reducer st.cur x = (m', e) ∧ Plain e ∧
          effA k e = queuedCmds parse [.reduce d x i] := by
        rcases x with a | x
        · exact ⟨_, _, (hc.act _ _).1, trivial, rfl⟩
        · refine ⟨_, _, hc.cmd _ _ ht, ?_, ?_⟩
          · cases parse x <;> trivial
          · cases hp : parse x <;> simp [effA, queuedCmds, hp, k.dec_code]
      obtain ⟨e, m', hr, hp, hk⟩ := key
      have hne : e.isEmpty = false := by cases e <;> first | rfl | exact hp.elim
      simp only [hr, hne, Bool.false_eq_true, if_false, Option.map_some, Option.some.injEq] at h
      subst h
      have h1 : ∀ s : St (A ⊕ C) Mo, (s.pushDown c m').tag = s.tag ∧ (s.pushDown c m').ev = s.ev ∧
          (s.pushDown c m').queue = s.queue ∧ (s.pushDown c m').log = s.log := by
        intro s; unfold St.pushDown; split <;> simp
      obtain ⟨h1, h2, h3, h4⟩ := h1 (St.post { st with queue := q } (.effect d e i))
      simp only [St.post] at h1 h2 h3 h4
      refine ⟨⟨?_, ?_, ?_, ?_⟩, ?_, ?_⟩
      · simp only [St.say, St.post, h1]; exact o.tag
      · simp only [St.say, St.post, h2]; exact o.ev
      · simp only [St.say, St.post, h2]; exact o.one
      · simp only [St.say, h3, St.post, List.mem_append, List.mem_singleton]
        rintro d' e' i' (hm | hm)
        · exact o.tail hq _ _ _ hm
        · cases hm; exact hp
      · simp only [St.say, St.post, h4, dispatches_append]; simp [dispatches]
      · have h5 : queuedCmds parse (.reduce d x i :: q) = queuedCmds parse [.reduce d x i] ++ queuedCmds parse q := by
          rw [← queuedCmds_append]; rfl
        simp only [Doc.waiting, St.say, St.post, h2, h3]
        simp only [he, hq, queuedEffs_append, queuedCmds_append, h5]
        simp [queuedEffs, hk, queuedCmds]
  · rename_i d e i q hq
    cases h
    obtain ⟨h1, h2, h3, h4⟩ := publish_rest c { st with queue := q }
    refine ⟨⟨?_, ?_, ?_, ?_⟩, ?_, ?_⟩
    · simp only [St.say, h1]; exact o.tag
    · simp only [h3]
      simp only [he, List.mem_singleton]
      rintro f rfl
      exact ⟨rfl, ⟨_, _, rfl⟩, fun e' h => by cases h; exact o.queue d e i (by simp [hq])⟩
    · simp only [h3]; simp [he]
    · simp only [St.say, h2]; exact o.tail hq
    · simp only [St.say, dispatches_append, h4]; simp [dispatches]
    · simp only [Doc.waiting, St.say, h2, h3]; simp [he, hq, queuedEffs, queuedCmds, evA]
  · rename_i d i q hq
    have q' := complete_quiets h
    obtain ⟨h1, h2, h3, h4⟩ := publish_rest c { st with queue := q }
    have o' : Ok (St.say (St.publish c { st with queue := q }) (.ready d)) := by
      refine ⟨?_, ?_, ?_, ?_⟩
      · simp only [St.say, h1]; exact o.tag
      · simp only [St.say, h3]; exact o.ev
      · simp only [St.say, h3]; exact o.one
      · simp only [St.say, h2]; exact o.tail hq
    refine ⟨q'.ok o', ?_, ?_⟩
    · rw [q'.log]; simp only [St.say, dispatches_append, h4]; simp [dispatches]
    · rw [q'.waiting]; simp only [Doc.waiting, St.say, h2, h3]; simp [he, hq, queuedEffs, queuedCmds]
  · rename_i q hq
    have o' : Ok { st with queue := q } := ⟨o.tag, o.ev, o.one, o.tail hq⟩
    have q' := runTask_quiets o' h
    refine ⟨q'.ok o', by rw [q'.log], ?_⟩
    rw [q'.waiting]; simp [Doc.waiting, he, hq, queuedEffs, queuedCmds]

theorem single {α : Type} {l : List α} (h : l.length ≤ 1) {n : Nat} {x : α} (hx : l[n]? = some x) : l = [x] ∧ n = 0 := by
  rcases l with _ | ⟨y, _ | ⟨z, l⟩⟩
  · simp at hx
  · rcases n with _ | n
    · simpa using hx
    · simp at hx
  · simp at h

theorem step_go {k : Coding A} {parse : C → Option A} {c : Cfg (A ⊕ C) Mo} {st st' : St (A ⊕ C) Mo} (o : Ok st) {n : Nat}
    (h : step c st (.go n) = some st') :
    Ok st' ∧ dispatches st'.log = dispatches st.log ∧ waiting k parse st' = waiting k parse st := by
  simp only [step] at h
  split at h
  · cases h
  · rename_i f hf
    obtain ⟨he, rfl⟩ := single o.one hf
    obtain ⟨hks, ⟨d, i, hk⟩, hcall⟩ := o.ev f (by simp [he])
    rcases f with ⟨x, pos, mode, ks, kk⟩
    simp only at hks hk hcall
    subst hks hk
    have hnil : st.ev.eraseIdx 0 = [] := by simp [he]
    simp only [St.go, hnil] at h
    rcases mode with e | id | g
    · have hp := hcall e rfl
      rcases e with _ | _ | id | ⟨a, b⟩
      · cases h
      · cases h
        refine ⟨⟨o.tag, ?_, by simp, o.queue⟩, rfl, by simp [Doc.waiting, he, evA, effA]⟩
        simp only [List.mem_singleton]
        rintro f rfl
        exact ⟨rfl, ⟨_, _, rfl⟩, fun e' h => by cases h⟩
      · cases h
        refine ⟨⟨o.tag, ?_, by simp [St.say], o.queue⟩, by simp [St.say, dispatches_append, dispatches],
          by simp [Doc.waiting, he, evA, effA, St.say]⟩
        simp only [List.mem_singleton, St.say]
        rintro f rfl
        exact ⟨rfl, ⟨_, _, rfl⟩, fun e' h => by cases h⟩
      · exact hp.elim
    · cases h
    · have o' : ∀ e, Ok (St.say { st with ev := [] } (.effEnd d e)) := fun e =>
        ⟨o.tag, by simp [St.say], by simp [St.say], o.queue⟩
      have hw : ∀ e, waiting k parse (St.say { st with ev := [] } (.effEnd d e)) = waiting k parse st := fun e => by
        simp [Doc.waiting, he, evA, St.say]
      have hd : ∀ e, dispatches (St.say { st with ev := [] } (.effEnd d e)).log = dispatches st.log := fun e => by
        simp [St.say, dispatches_append, dispatches]
      have done : ∀ e s1, Quiets (St.say { st with ev := [] } (.effEnd d e)) s1 →
          Ok s1 ∧ dispatches s1.log = dispatches st.log ∧ waiting k parse s1 = waiting k parse st := fun e s1 q =>
        ⟨q.ok (o' e), by rw [q.log, hd], by rw [q.waiting, hw]⟩
      simp only at h
      split at h
      · split at h
        · exact done _ _ (fstep_quiets h)
        · exact done _ _ (fstep_quiets h)
      · cases h
        exact done _ _ ⟨rfl, rfl, rfl, 0, by simp⟩

theorem step_prim {k : Coding A} {parse : C → Option A} {c : Cfg (A ⊕ C) Mo} {st st' : St (A ⊕ C) Mo} (o : Ok st) {n id : Nat}
    {f : EF} (hf : st.ev[n]? = some f) (hm : f.mode = .prim id) (h : step c st (.prim n none) = some st') :
    Ok st' ∧ dispatches st'.log = dispatches st.log ∧ waiting k parse st = k.dec id :: waiting k parse st' := by
  obtain ⟨he, rfl⟩ := single o.one hf
  obtain ⟨hks, ⟨d, i, hk⟩, hcall⟩ := o.ev f (by simp [he])
  rcases f with ⟨x, pos, mode, ks, kk⟩
  simp only at hks hk hm
  subst hks hk hm
  simp only [step, hf] at h
  split at h
  · cases h
    refine ⟨⟨o.tag, ?_, by simp [he], o.queue⟩, by simp [St.say, dispatches_append, dispatches],
      by simp [Doc.waiting, he, evA, St.say]⟩
    simp only [he, List.eraseIdx_cons_zero, List.mem_singleton]
    rintro f rfl
    exact ⟨rfl, ⟨_, _, rfl⟩, fun e' h => by cases h⟩
  · cases h

theorem Runs.reach {k : Coding A} {c : Cfg (A ⊕ C) Mo} {W : St (A ⊕ C) Mo → Prop} {outs st} (h : Runs k c W outs st) :
    Reach c st := by
  induction h with
  | start => exact .start
  | outside x _ _ hs ih => exact .step _ ih hs
  | loop _ _ hs ih => exact .step _ ih hs
  | other l _ hs ih => exact .step _ ih hs
  | fut op _ hs ih => exact .step _ ih hs
  | go n _ hs ih => exact .step _ ih hs
  | effect n id _ _ _ hs hs' ih => exact .step _ (.step _ ih hs) hs'

theorem actions_append (l r : List (A ⊕ C)) : actions (l ++ r) = actions l ++ actions r := by
  simp [actions]

theorem actions_inl (a : A) (l : List (A ⊕ C)) : actions (.inl a :: l) = a :: actions l := rfl

theorem actions_inr (x : C) (l : List (A ⊕ C)) : actions (.inr x :: l) = actions l := rfl

theorem actions_nil : actions ([] : List (A ⊕ C)) = [] := rfl

/-- Any relation between what is dispatched from outside, what waits and what was dispatched as an action is an invariant if
the three kinds of dispatches keep it. -/
theorem Runs.inv {k : Coding A} {r : Mo → A → Mo} {parse : C → Option A} {c : Cfg (A ⊕ C) Mo}
    (hc : Intends k r parse c) {W : St (A ⊕ C) Mo → Prop} {P : List (A ⊕ C) → List A → List A → Prop} (h0 : P [] [] [])
    (h1 : ∀ outs st a, Ok st → W st → P outs (waiting k parse st) (actions (dispatches st.log)) →
      P (outs ++ [.inl a]) (waiting k parse st) (actions (dispatches st.log) ++ [a]))
    (h2 : ∀ outs st x, Ok st → W st → P outs (waiting k parse st) (actions (dispatches st.log)) →
      P (outs ++ [.inr x]) (waiting k parse st ++ (parse x).toList) (actions (dispatches st.log)))
    (h3 : ∀ outs a p l, P outs (a :: p) l → P outs p (l ++ [a]))
    {outs st} (h : Runs k c W outs st) : Ok st ∧ P outs (waiting k parse st) (actions (dispatches st.log)) := by
  induction h with
  | start => exact ⟨⟨fun _ => rfl, fun _ h => (nomatch h), Nat.zero_le _, fun _ _ _ h => (nomatch h)⟩, h0⟩
  | outside x _ hw hs ih =>
    obtain ⟨o, _, hd, hq⟩ := step_dispatch (k := k) (parse := parse) ih.1 hs
    refine ⟨o, ?_⟩
    rcases x with a | x
    · simpa [hd, hq, queuedCmds, actions_append, actions_inl, actions_nil] using h1 _ _ a ih.1 hw ih.2
    · simpa [hd, hq, queuedCmds, actions_append, actions_inr, actions_nil] using h2 _ _ x ih.1 hw ih.2
  | loop _ he hs ih =>
    obtain ⟨o, hd, hq⟩ := step_loop hc ih.1 he hs
    exact ⟨o, by rw [hd, hq]; exact ih.2⟩
  | other l _ hs ih =>
    simp only [step] at hs
    split at hs
    · cases hs
    · have q := runTask_quiets ih.1 hs
      exact ⟨q.ok ih.1, by rw [q.log, q.waiting]; exact ih.2⟩
  | fut op _ hs ih =>
    simp only [step] at hs
    split at hs
    · have q := fstep_quiets hs
      exact ⟨q.ok ih.1, by rw [q.log, q.waiting]; exact ih.2⟩
    · cases hs
  | go n _ hs ih =>
    obtain ⟨o, hd, hq⟩ := step_go (k := k) (parse := parse) ih.1 hs
    exact ⟨o, by rw [hd, hq]; exact ih.2⟩
  | @effect outs st st1 st2 f n id _ hf hm hs hs' ih =>
    obtain ⟨o, hev, hd, hq⟩ := step_dispatch (k := k) (parse := parse) ih.1 hs
    obtain ⟨o', hd', hq'⟩ := step_prim (k := k) (parse := parse) o (by rw [hev]; exact hf) hm hs'
    refine ⟨o', ?_⟩
    simp only [queuedCmds, List.append_nil] at hq
    rw [hd', hd, actions_append]
    refine h3 _ _ _ _ ?_
    rw [← hq', hq]
    exact ih.2

theorem fold_actions {k : Coding A} {r : Mo → A → Mo} {parse : C → Option A} {c : Cfg (A ⊕ C) Mo}
    (hc : Intends k r parse c) (l : List (A ⊕ C)) : fold c l = (actions l).foldl r c.init := by
  have : ∀ m, l.foldl c.next m = (actions l).foldl r m := by
    induction l with
    | nil => exact fun _ => rfl
    | cons x l ih =>
      intro m
      rcases x with a | x
      · simp [actions_inl, Cfg.next, (hc.act _ _).1, (hc.act _ _).2, ← ih]
      · have : c.next m (.inr x) = m := by
          unfold Cfg.next
          split
          · rfl
          · rename_i h; rw [hc.cmd _ _ (by simpa using h)]
        simp [actions_inr, this, ih]
  exact this _

theorem rests_waiting {k : Coding A} {parse : C → Option A} {st : St (A ⊕ C) Mo} (h : Rests st) :
    waiting k parse st = [] := by
  simp [Doc.waiting, h.1, h.2, queuedEffs, queuedCmds]

/-! ### Theorems -/

/-- C129: when nothing is left to do, the store has handled the actions that were dispatched from outside and those of the
commands, each once; those of the commands in the order of the commands, and each at some time after its command.  All are
seen by the store, as dispatches. -/
theorem C129_order {k : Coding A} {r : Mo → A → Mo} {parse : C → Option A} {c : Cfg (A ⊕ C) Mo}
    (hc : Intends k r parse c) {outs : List (A ⊕ C)} {st : St (A ⊕ C) Mo} (h : Runs k c (fun _ => True) outs st)
    (hr : Rests st) : ∃ l, Delivered parse outs [] l ∧ actions (dispatches st.log) = l ∧ st.get = l.foldl r c.init := by
  obtain ⟨_, hp⟩ := h.inv hc (P := Delivered parse) .start (fun _ _ a _ _ h => .act a h) (fun _ _ x _ _ h => .cmd x h)
    (fun _ a _ _ h => .deliver a h)
  rw [rests_waiting hr] at hp
  exact ⟨_, hp, rfl, by rw [C48_fold hc.sound hc.trans h.reach hr.1, fold_actions hc]⟩

/-- C129: if actions and commands are only dispatched when nothing is left to do, the model is the one that a reducer gives
which handles the action of a command at once. -/
theorem C129_direct {k : Coding A} {r : Mo → A → Mo} {parse : C → Option A} {c : Cfg (A ⊕ C) Mo}
    (hc : Intends k r parse c) {outs : List (A ⊕ C)} {st : St (A ⊕ C) Mo} (h : Runs k c Rests outs st)
    (hr : Rests st) : st.get = outs.foldl (directly r parse) c.init := by
  have key : ∀ (l : List (A ⊕ C)) (m : Mo), l.foldl (directly r parse) m =
      (l.flatMap fun x => match x with
        | .inl a => [a]
        | .inr x => (parse x).toList).foldl r m := by
    intro l
    induction l with
    | nil => exact fun _ => rfl
    | cons x l ih =>
      intro m
      rcases x with a | x
      · simp [directly, ih]
      · cases hp : parse x <;> simp [directly, hp, ih]
  obtain ⟨_, hp⟩ := h.inv hc (P := fun outs p l => l ++ p = outs.flatMap fun x => match x with
        | .inl a => [a]
        | .inr x => (parse x).toList) rfl
    (fun _ _ a _ hw h => by
      simp only [rests_waiting hw] at h ⊢
      simp [← h])
    (fun _ _ x _ hw h => by
      simp only [rests_waiting hw] at h ⊢
      simp [← h])
    (fun _ a _ _ h => by rw [← h]; simp)
  rw [rests_waiting hr, List.append_nil] at hp
  rw [C48_fold hc.sound hc.trans h.reach hr.1, fold_actions hc, hp, ← key]

/-! ### The list of todos -/

/-- The action that a command means: none if there is no such command or its argument is no number. -/
def intent (c : TodoCmd) : Option TodoAct :=
  if c.command = "add" then some (.add c.argument)
  else if c.command = "remove" then (stoi c.argument).map fun n => .remove (index n)
  else if c.command = "toggle" then (stoi c.argument).map fun n => .toggle (index n)
  else none

theorem intent_actions (c : TodoCmd) : intent c = (commandActions c.command).bind fun f => f c.argument := by
  unfold intent commandActions
  split
  · rfl
  · split
    · rfl
    · split <;> rfl

/-- The store of the documentation is such a store. -/
theorem C129_todos (k : Coding TodoAct) (hasF : Bool) (init : List Todo) :
    Intends k (fun m a => m.bind fun m => updateTodos m a) intent (todoStore k hasF init) where
  sound := fun v w h => by simpa [todoStore] using h
  trans := rfl
  act m a := ⟨rfl, rfl⟩
  cmd m x h := by
    rw [intent_actions]
    simp only [todoStore, updateIntent, intentThrows] at h ⊢
    cases hf : commandActions x.command with
    | none => rfl
    | some f =>
      rw [hf] at h
      cases ha : f x.argument with
      | none => simp [ha] at h
      | some a => simp [ha]
  bad m x h := by
    rw [intent_actions]
    simp only [todoStore, intentThrows] at h
    cases hf : commandActions x.command with
    | none => rfl
    | some f =>
      rw [hf] at h
      cases ha : f x.argument with
      | none => simp [ha]
      | some a => simp [ha] at h

/-- The reducer that calls itself with the action of a command does what `directly` says; an exception leaves the model as it
is. -/
theorem C129_command (m : List Todo) (x : TodoCmd) :
    (updateCommand m x).getD (some m) = directly (fun m a => m.bind fun m => updateTodos m a) intent (some m) (.inr x) := by
  simp only [directly, intent_actions, updateCommand]
  cases commandActions x.command with
  | none => rfl
  | some f => cases h : f x.argument <;> simp [h]

/-! ### Examples -/

/-- A number for a text. -/
def encode : List Char → Nat
  | [] => 0
  | c :: s => (c.toNat + 1) + 1114113 * encode s

def decode : Nat → Nat → List Char
  | 0, _ => []
  | fuel + 1, n => if n = 0 then [] else Char.ofNat (n % 1114113 - 1) :: decode fuel (n / 1114113)

theorem decode_encode (s : List Char) : ∀ fuel, encode s ≤ fuel → decode fuel (encode s) = s := by
  induction s with
  | nil => intro fuel _; cases fuel <;> rfl
  | cons c s ih =>
    intro fuel h
    have hc : c.toNat < 1114112 := by
      have := c.valid
      simp only [UInt32.isValidChar, Nat.isValidChar] at this
      have h2 : c.toNat = c.val.toNat := rfl
      omega
    simp only [encode] at h ⊢
    obtain ⟨fuel, rfl⟩ : ∃ f, fuel = f + 1 := ⟨fuel - 1, by omega⟩
    have h1 : (c.toNat + 1 + 1114113 * encode s) % 1114113 = c.toNat + 1 := by omega
    have h2 : (c.toNat + 1 + 1114113 * encode s) / 1114113 = encode s := by omega
    have h3 : c.toNat + 1 + 1114113 * encode s ≠ 0 := by omega
    simp only [decode, h1, h2, if_neg h3, ih fuel (by omega)]
    simp

/-- There are numbers for all actions. -/
def todoCoding : Coding TodoAct where
  code
    | .add s => 3 * encode s.toList
    | .remove i => 3 * i + 1
    | .toggle i => 3 * i + 2
  dec n := if n % 3 = 0 then .add (String.ofList (decode (n / 3) (n / 3))) else if n % 3 = 1 then .remove (n / 3) else .toggle (n / 3)
  dec_code a := by
    cases a with
    | add s =>
      have h1 : 3 * encode s.toList % 3 = 0 := by omega
      have h2 : 3 * encode s.toList / 3 = encode s.toList := by omega
      simp [h1, h2, decode_encode]
    | remove i =>
      have h1 : (3 * i + 1) % 3 = 1 := by omega
      have h2 : (3 * i + 1) / 3 = i := by omega
      simp [h1, h2]
    | toggle i =>
      have h1 : (3 * i + 2) % 3 = 2 := by omega
      have h2 : (3 * i + 2) / 3 = i := by omega
      simp [h1, h2]

/-- What a program does: dispatch, run a task, or go on with the effect. -/
inductive Play (A C : Type) where
  | out (x : A ⊕ C)
  | task
  | go
  | effect

def play (k : Coding A) (c : Cfg (A ⊕ C) Mo) (rests : Bool) (st : St (A ⊕ C) Mo) :
    List (Play A C) → Option (St (A ⊕ C) Mo)
  | [] => some st
  | .out x :: l =>
    if rests = true ∧ ¬ (st.queue.isEmpty = true ∧ st.ev.isEmpty = true) then none
    else (step c st (.dispatch x)).bind fun st => play k c rests st l
  | .task :: l => if st.ev.isEmpty then (step c st .loop).bind fun st => play k c rests st l else none
  | .go :: l => (step c st (.go 0)).bind fun st => play k c rests st l
  | .effect :: l =>
    match st.ev[0]?.map EF.mode with
    | some (.prim id) =>
      (step c st (.dispatch (.inl (k.dec id)))).bind fun st => (step c st (.prim 0 none)).bind fun st => play k c rests st l
    | _ => none

def outside : List (Play A C) → List (A ⊕ C)
  | [] => []
  | .out x :: l => x :: outside l
  | _ :: l => outside l

theorem play_runs {k : Coding A} {c : Cfg (A ⊕ C) Mo} {rests : Bool} : ∀ (l : List (Play A C)) {outs st st'},
    Runs k c (fun st => rests = true → Rests st) outs st → play k c rests st l = some st' →
    Runs k c (fun st => rests = true → Rests st) (outs ++ outside l) st'
  | [], outs, st, st', h, he => by cases he; simpa [outside] using h
  | .out x :: l, outs, st, st', h, he => by
    simp only [play] at he
    split at he
    · cases he
    · rename_i hw
      obtain ⟨s, hs, he⟩ := Option.bind_eq_some_iff.mp he
      have := play_runs l (h.outside x (fun hr => by simpa [hr, Rests] using hw) hs) he
      simpa [outside] using this
  | .task :: l, outs, st, st', h, he => by
    simp only [play] at he
    split at he
    · rename_i hw
      obtain ⟨s, hs, he⟩ := Option.bind_eq_some_iff.mp he
      exact play_runs l (h.loop (by simpa using hw) hs) he
    · cases he
  | .go :: l, outs, st, st', h, he => by
    obtain ⟨s, hs, he⟩ := Option.bind_eq_some_iff.mp he
    exact play_runs l (h.go 0 hs) he
  | .effect :: l, outs, st, st', h, he => by
    simp only [play] at he
    split at he
    · rename_i id hm
      obtain ⟨f, hf, hm⟩ := Option.map_eq_some_iff.mp hm
      obtain ⟨s, hs, he⟩ := Option.bind_eq_some_iff.mp he
      obtain ⟨s', hs', he⟩ := Option.bind_eq_some_iff.mp he
      exact play_runs l (h.effect 0 id hf hm hs hs') he
    · cases he

theorem Runs.mono {k : Coding A} {c : Cfg (A ⊕ C) Mo} {W W' : St (A ⊕ C) Mo → Prop} (hw : ∀ st, W st → W' st) {outs st}
    (h : Runs k c W outs st) : Runs k c W' outs st := by
  induction h with
  | start => exact .start
  | outside x _ hW hs ih => exact .outside x ih (hw _ hW) hs
  | loop _ he hs ih => exact .loop ih he hs
  | other l _ hs ih => exact .other l ih hs
  | fut op _ hs ih => exact .fut op ih hs
  | go n _ hs ih => exact .go n ih hs
  | effect n id _ hf hm hs hs' ih => exact .effect n id ih hf hm hs hs'

theorem play_shows [DecidableEq Mo] {k : Coding A} {c : Cfg (A ⊕ C) Mo} {rests : Bool} {l : List (Play A C)} {v : Mo}
    (h : (play k c rests (start c) l).any (fun st => st.queue.isEmpty && st.ev.isEmpty && decide (st.get = v)) = true) :
    ∃ st, Runs k c (fun st => rests = true → Rests st) (outside l) st ∧ Rests st ∧ st.get = v := by
  cases hp : play k c rests (start c) l with
  | none => simp [hp] at h
  | some st =>
    simp only [hp, Option.any_some, Bool.and_eq_true, List.isEmpty_iff, decide_eq_true_eq] at h
    exact ⟨st, play_runs l .start hp, h.1, h.2⟩

/-- All that is left to do for one command, or for one action. -/
def Play.cmd : List (Play A C) := [.task, .task, .go, .effect, .go, .task, .task, .go, .go]
def Play.act : List (Play A C) := [.task, .task, .go, .go]

def exTodos : List Todo := [⟨"milk", false⟩, ⟨"bread", false⟩]

/-- Nothing else is dispatched before a command has been handled: toggle the first, then remove the second, add one, then an
argument that is no number and an unknown command. -/
def exPlays : List (Play TodoAct TodoCmd) :=
  [.out (.inr ⟨"toggle", "0"⟩)] ++ Play.cmd ++ [.out (.inl (.remove 1))] ++ Play.act ++ [.out (.inr ⟨"add", "eggs"⟩)] ++
    Play.cmd ++ [.out (.inr ⟨"toggle", "x"⟩), .task] ++ [.out (.inr ⟨"clear", ""⟩)] ++ Play.act

example : ∃ st, Runs todoCoding (todoStore todoCoding false exTodos) Rests (outside exPlays) st ∧ Rests st ∧
    st.get = some [⟨"milk", true⟩, ⟨"eggs", false⟩] := by
  obtain ⟨st, h1, h2⟩ := play_shows (k := todoCoding) (c := todoStore todoCoding false exTodos) (rests := true) (l := exPlays)
    (v := some [⟨"milk", true⟩, ⟨"eggs", false⟩]) (by decide +kernel)
  exact ⟨st, h1.mono fun _ h => h rfl, h2⟩

/-- C129: in general the model is another one, and it may be undefined: the only todo is to be toggled by a command and then
removed.  When the effect of the command dispatches the action, the todo is removed already. -/
theorem C129_undefined_false : ∃ (outs : List (TodoAct ⊕ TodoCmd)) (st : St (TodoAct ⊕ TodoCmd) (Option (List Todo))),
    Runs todoCoding (todoStore todoCoding false [⟨"milk", false⟩]) (fun _ => True) outs st ∧ Rests st ∧
    outs = [.inr ⟨"toggle", "0"⟩, .inl (.remove 0)] ∧ st.get = none ∧
    outs.foldl (directly (fun m a => m.bind fun m => updateTodos m a) intent) (some [⟨"milk", false⟩]) = some [] := by
  obtain ⟨st, h1, h2, h3⟩ := play_shows (k := todoCoding) (c := todoStore todoCoding false [⟨"milk", false⟩]) (rests := false)
    (l := [.out (.inr ⟨"toggle", "0"⟩), .out (.inl (.remove 0)), .task, .task, .task, .go, .effect, .go, .task, .go, .go, .task,
      .task, .go, .go]) (v := none) (by decide +kernel)
  exact ⟨_, st, h1.mono fun _ _ => trivial, h2, rfl, h3, by decide +kernel⟩

end Verif.Doc
