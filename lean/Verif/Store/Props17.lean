import Verif.Store.Paced
import Verif.Example.TodoReduxProps

/-!
C136: programs that draw frames.
-/

namespace Verif.Store

variable {A Mo : Type}

/-! ### Spec -/

/-- What a program on the SDL loop can become, if never more than `cap` events and dispatches come between the beginnings of two
frames, where SDL's queue has room for `cap` of them. -/
inductive Paced.Reach (c : Cfg A Mo) (cap : Nat) : Paced A Mo → Prop where
  | start : Reach c cap (.start c)
  | step {w w'} (o : FOp A) : Reach c cap w → Paced.step c cap w o = some w' → w'.since ≤ cap → Reach c cap w'

/-- What a program in a browser can become. -/
inductive Browser.Reach (c : Cfg A Mo) : Browser A Mo → Prop where
  | start : Reach c (.start c)
  | step {b b'} (o : BOp A) : Reach c b → Browser.step c b o = some b' → Reach c b'

/-! ### SDL -/

theorem dispatch_get {c : Cfg A Mo} (hF : c.hasF = false) {p q : Par A Mo} {a : A}
    (h : Par.step c 1 p (.user (.dispatch a)) = some q) : q.st.get = p.st.get := by
  simp only [Par.step, SOp.isUser, if_true, Option.map_eq_some_iff] at h
  obtain ⟨t, h1, rfl⟩ := h
  exact (dispatch_grows hF h1).2.2.2.1

theorem arrives_get {c : Cfg A Mo} (hF : c.hasF = false) {cap : Nat} {s s' : SdlQ A Mo} {o : LOp A}
    (ho : o.arrives = true) (h : SdlQ.step c cap s o = some s') : s'.p.st.get = s.p.st.get := by
  cases o with
  | dispatch a =>
    simp only [SdlQ.step] at h
    split at h
    · simp only [Option.map_eq_some_iff] at h
      obtain ⟨p, h1, rfl⟩ := h
      exact dispatch_get hF h1
    · cases h; rfl
  | event =>
    simp only [SdlQ.step] at h
    split at h <;> cases h <;> rfl
  | _ => cases ho

theorem posted_mono {c : Cfg A Mo} {cap : Nat} {s s' : SdlQ A Mo} {o : LOp A}
    (h : SdlQ.step c cap s o = some s') : s.posted <+: s'.posted := by
  have own : ∀ {op : POp A}, s.own c cap op = some s' → s.posted <+: s'.posted := by
    intro op h
    simp only [SdlQ.own, Option.map_eq_some_iff] at h
    obtain ⟨p, _, h⟩ := h
    split at h
    · cases h; exact List.prefix_refl _
    · split at h <;> cases h <;> exact List.prefix_refl _
  cases o with
  | dispatch a =>
    simp only [SdlQ.step] at h
    split at h
    · simp only [Option.map_eq_some_iff] at h
      obtain ⟨p, h1, rfl⟩ := h
      exact List.prefix_append ..
    · cases h; exact List.prefix_append ..
  | event =>
    simp only [SdlQ.step] at h
    split at h <;> cases h <;> exact List.prefix_refl _
  | take =>
    simp only [SdlQ.step] at h
    split at h
    · cases h
    · simp only [Option.map_eq_some_iff] at h
      obtain ⟨p, h1, rfl⟩ := h
      exact List.prefix_refl _
    · split at h
      · cases h; exact List.prefix_refl _
      · cases h
  | _ => exact own h

/-- The invariant. -/
structure Paced.Inv (c : Cfg A Mo) (cap : Nat) (w : Paced A Mo) : Prop where
  reach : SdlQ.Reach c cap w.s
  load : w.s.load ≤ w.since
  refused : w.s.refused = []
  dropped : w.s.dropped = 0
  exact : ∀ f ∈ w.frames, f.1 = fold c f.2
  grows : w.frames.Pairwise fun f g => f.2 <+: g.2
  past : ∀ f ∈ w.frames, f.2 <+: w.s.posted
  steady : w.drawing = true → ∃ f, w.frames.getLast? = some f ∧ w.s.p.st.get = f.1

theorem Paced.Reach.inv {c : Cfg A Mo} (hc : c.sound) (hF : c.hasF = false) (ht : c.trans = false) {cap : Nat}
    {w : Paced A Mo} (r : Paced.Reach c cap w) : Paced.Inv c cap w := by
  induction r with
  | start => exact ⟨.start, Nat.le_refl _, rfl, rfl, nofun, .nil, nofun, nofun⟩
  | @step w w' o r h hs ih =>
    cases o with
    | op o =>
      simp only [Paced.step] at h
      split at h
      · cases h
      · rename_i hd
        simp only [Option.map_eq_some_iff] at h
        obtain ⟨s, h1, rfl⟩ := h
        dsimp only at hs
        have hl := ih.load
        obtain ⟨k1, k2, k3⟩ := load_step hc hF ih.reach h1 (fun ha => by rw [ha] at hs; simp at hs; omega)
          (by split at hs <;> omega)
        refine ⟨ih.reach.step o h1, ?_, k2.trans ih.refused, k3.trans ih.dropped, ih.exact, ih.grows,
          fun f hf => (ih.past f hf).trans (posted_mono h1), fun hw => ?_⟩
        · show s.load ≤ w.since + _
          omega
        · obtain ⟨f, h2, h3⟩ := ih.steady hw
          refine ⟨f, h2, (arrives_get hF ?_ h1).trans h3⟩
          cases ha : o.arrives with
          | true => rfl
          | false => rw [ha, show w.drawing = true from hw] at hd; exact absurd rfl hd
    | tick =>
      simp only [Paced.step] at h
      split at h
      · rename_i hg
        simp only [Bool.and_eq_true, Bool.not_eq_true', List.isEmpty_iff] at hg
        obtain ⟨⟨_, he⟩, hj⟩ := hg
        cases h
        have k := ih.reach.inv hc hF
        have hq : w.s.p.st.idle := by
          refine List.length_eq_zero_iff.1 ?_
          rw [← k.count, he]; rfl
        have d := done_of_idle hc ht (k.par ih.dropped) hj hq
        have hp := k.perm
        rw [ih.refused, List.append_nil] at hp
        have hg : w.s.p.st.get = fold c w.s.posted := by
          rw [← k.taken.eq_of_length hp.length_eq]
          exact d.get
        refine ⟨ih.reach, ?_, ih.refused, ih.dropped, ?_, ?_, ?_, fun _ => ⟨(w.s.p.st.get, w.s.posted), by simp, rfl⟩⟩
        · simp [SdlQ.load, he, hj, evaluating]
        · intro f hf
          rcases List.mem_append.1 hf with hf | hf
          · exact ih.exact f hf
          · cases List.mem_singleton.1 hf; exact hg
        · refine List.pairwise_append.2 ⟨ih.grows, List.pairwise_singleton .., fun f hf g hg => ?_⟩
          cases List.mem_singleton.1 hg
          exact ih.past f hf
        · intro f hf
          rcases List.mem_append.1 hf with hf | hf
          · exact ih.past f hf
          · cases List.mem_singleton.1 hf; exact List.prefix_refl _
      · cases h
    | tock =>
      simp only [Paced.step] at h
      split at h
      · cases h
        exact ⟨ih.reach, ih.load, ih.refused, ih.dropped, ih.exact, ih.grows, ih.past, nofun⟩
      · cases h

/-- C136: every frame shows the fold of the reducer over all actions that were dispatched before it began, and none of these is
lost. -/
theorem C136_frame {c : Cfg A Mo} (hc : c.sound) (hF : c.hasF = false) (ht : c.trans = false) {cap : Nat}
    {w : Paced A Mo} (r : Paced.Reach c cap w) :
    (∀ f ∈ w.frames, f.1 = fold c f.2 ∧ f.2 <+: w.s.posted) ∧ w.s.refused = [] := by
  have k := r.inv hc hF ht
  exact ⟨fun f hf => ⟨k.exact f hf, k.past f hf⟩, k.refused⟩

/-- C136: so what is dispatched while a frame is drawn acts on what this shows: the next frame shows what the reducer makes of
it with the actions dispatched since it began. -/
theorem C136_next {c : Cfg A Mo} (hc : c.sound) (hF : c.hasF = false) (ht : c.trans = false) {cap : Nat}
    {w : Paced A Mo} (r : Paced.Reach c cap w) {l1 l2 : List (Mo × List A)} {f g : Mo × List A}
    (h : w.frames = l1 ++ f :: g :: l2) : ∃ as, g.2 = f.2 ++ as ∧ g.1 = as.foldl c.next f.1 := by
  have k := r.inv hc hF ht
  have hf := k.exact f (by rw [h]; simp)
  have hg := k.exact g (by rw [h]; simp)
  have hp := k.grows
  rw [h] at hp
  obtain ⟨as, ha⟩ := List.rel_of_pairwise_cons (List.pairwise_append.1 hp).2.1 (List.mem_cons_self (a := g))
  refine ⟨as, ha.symm, ?_⟩
  rw [hg, hf, ← ha]
  simp [fold, List.foldl_append]

/-- C136: while a frame is drawn, `get()` stays the same, whatever is dispatched. -/
theorem C136_steady {c : Cfg A Mo} (hc : c.sound) (hF : c.hasF = false) (ht : c.trans = false) {cap : Nat}
    {w : Paced A Mo} (r : Paced.Reach c cap w) (hd : w.drawing = true) :
    ∃ f, w.frames.getLast? = some f ∧ w.s.p.st.get = f.1 := (r.inv hc hF ht).steady hd

/-! ### Browsers -/

theorem lastShown_cases (init : Mo) (l : List (SEv A Mo)) :
    lastShown init l = init ∨ ∃ l1 v l2, l = l1 ++ .shown v :: l2 ∧ lastShown init l = v := by
  induction l generalizing init with
  | nil => exact .inl rfl
  | cons e l ih =>
    have other : (∀ v, e ≠ .shown v) → lastShown init (e :: l) = lastShown init l := by
      intro h
      cases e <;> first | rfl | exact absurd rfl (h _)
    cases he : e with
    | shown v =>
      refine .inr ?_
      rcases ih v with h | ⟨l1, u, l2, h1, h2⟩
      · exact ⟨[], v, l, rfl, h⟩
      · exact ⟨.shown v :: l1, u, l2, by rw [h1]; rfl, h2⟩
    | _ =>
      rw [← he, other (by rw [he]; nofun)]
      rcases ih init with h | ⟨l1, u, l2, h1, h2⟩
      · exact .inl h
      · exact .inr ⟨e :: l1, u, l2, by rw [h1]; rfl, h2⟩

/-- The invariant. -/
structure Browser.Inv (c : Cfg A Mo) (b : Browser A Mo) : Prop where
  reach : Par.Reach c 1 b.p
  exact : ∀ f ∈ b.frames, ∃ as, as <+: f.2 ∧ f.1 = fold c as

theorem Browser.Reach.inv {c : Cfg A Mo} (hc : c.sound) {b : Browser A Mo} (r : Browser.Reach c b) : Browser.Inv c b := by
  induction r with
  | start => exact ⟨.start, nofun⟩
  | @step b b' o r h ih =>
    cases o with
    | op o =>
      simp only [Browser.step] at h
      split at h
      · cases h
      · simp only [Option.map_eq_some_iff] at h
        obtain ⟨p, h1, rfl⟩ := h
        exact ⟨ih.reach.step o h1, ih.exact⟩
    | tick =>
      simp only [Browser.step] at h
      split at h
      · rename_i hg
        simp only [Bool.and_eq_true, Bool.not_eq_true', List.isEmpty_iff] at hg
        cases h
        refine ⟨ih.reach, fun f hf => ?_⟩
        rcases List.mem_append.1 hf with hf | hf
        · exact ih.exact f hf
        · cases List.mem_singleton.1 hf
          obtain ⟨s, hs, k⟩ := C94_serial hc ih.reach hg.2
          have hseen : lastShown c.init b.p.st.log = b.p.st.get := by
            rw [← lastShown_filter, ← k.log.1, lastShown_filter, (C50_last hc hs).1]
            exact k.last
          rcases lastShown_cases c.init b.p.st.log with h | ⟨l1, v, l2, h1, h2⟩
          · exact ⟨[], List.nil_prefix, hseen.symm.trans h⟩
          · obtain ⟨h3, h4⟩ := C94_shown hc ih.reach h1
            exact ⟨_, h4, (hseen.symm.trans h2).trans h3⟩
      · cases h
    | tock =>
      simp only [Browser.step] at h
      split at h
      · cases h; exact ⟨ih.reach, ih.exact⟩
      · cases h

/-- C136: in a browser, a frame shows the fold over the first ones of the actions that were dispatched before it began. -/
theorem C136_browser {c : Cfg A Mo} (hc : c.sound) {b : Browser A Mo} (r : Browser.Reach c b) :
    ∀ f ∈ b.frames, ∃ as, as <+: f.2 ∧ f.1 = fold c as := (r.inv hc).exact

/-! ### The example `todo` -/

/-- The store of `example/todo/imgui/main.cpp:161-162`, with some items. -/
def todoCfg (init : Todo.Doc) : Cfg Todo.DocAct Todo.Doc where
  reducer m a := (Todo.docUpdate m a, .empty)
  changed v w := decide (v ≠ w)
  trans := false
  hasF := false
  init := init

theorem todoCfg_sound (init : Todo.Doc) : (todoCfg init).sound := fun v w h => by simpa [todoCfg] using h

/-- C136: if nothing but one button is clicked in a frame, it toggles or removes the item that is drawn there, and the next frame
shows that. -/
theorem C136_click {init : Todo.Doc} {cap : Nat} {w : Paced Todo.DocAct Todo.Doc} (r : Paced.Reach (todoCfg init) cap w)
    {l1 l2 : List (Todo.Doc × List Todo.DocAct)} {f g : Todo.Doc × List Todo.DocAct}
    (h : w.frames = l1 ++ f :: g :: l2) {l m : Todo.Doc} {x : Todo.Item} (hf : f.1 = l ++ x :: m) :
    (g.2 = f.2 ++ [.item l.length .toggle] → g.1 = l ++ ⟨!x.done, x.text⟩ :: m) ∧
    (g.2 = f.2 ++ [.item l.length .remove] → g.1 = l ++ m) := by
  obtain ⟨as, h1, h2⟩ := C136_next (todoCfg_sound init) rfl rfl r h
  refine ⟨fun hg => ?_, fun hg => ?_⟩
  · rw [h1] at hg
    cases List.append_cancel_left hg
    rw [h2, hf]
    exact Todo.toggle_at l x m
  · rw [h1] at hg
    cases List.append_cancel_left hg
    rw [h2, hf]
    exact Todo.remove_at l x m

/-! ### Examples, and what is false -/

def exPaced (c : Cfg A Mo) (cap : Nat) (os : List (FOp A)) : Paced A Mo := (Paced.exec c cap (.start c) os).getD (.start c)

/-- Do at most `cap` events arrive between frames? -/
def paced (c : Cfg A Mo) (cap : Nat) : Paced A Mo → List (FOp A) → Bool
  | _, [] => true
  | w, o :: os => match Paced.step c cap w o with
    | some w' => decide (w'.since ≤ cap) && paced c cap w' os
    | none => false

theorem paced_reach {c : Cfg A Mo} {cap : Nat} {w : Paced A Mo} {os : List (FOp A)} (r : Paced.Reach c cap w)
    (h : paced c cap w os = true) : ∃ w', Paced.exec c cap w os = some w' ∧ Paced.Reach c cap w' := by
  induction os generalizing w with
  | nil => exact ⟨w, rfl, r⟩
  | cons o os ih =>
    simp only [paced] at h
    split at h
    · rename_i w' h1
      simp only [Bool.and_eq_true, decide_eq_true_eq] at h
      obtain ⟨w2, h2, h3⟩ := ih (r.step o h1 h.1) h.2
      exact ⟨w2, by simp [Paced.exec, h1, h2], h3⟩
    · cases h

theorem exPaced_reach {c : Cfg A Mo} {cap : Nat} {os : List (FOp A)} (h : paced c cap (.start c) os = true) :
    Paced.Reach c cap (exPaced c cap os) := by
  obtain ⟨w, h1, h2⟩ := paced_reach .start h
  have : exPaced c cap os = w := by unfold exPaced; rw [h1]; rfl
  rw [this]; exact h2

/-- Two tasks for an action: to evaluate it, and to publish what changed. -/
def handled : List (FOp A) :=
  [.op .take, .op .go, .op .go, .op .take, .op .go, .op .go, .op .go]

def exTodo : Todo.Doc := [⟨false, "a"⟩, ⟨false, "b"⟩, ⟨false, "c"⟩]

/-- The first item is removed in each of two frames, with room for two events. -/
def exFrames : List (FOp Todo.DocAct) :=
  [.tick, .op (.dispatch (.item 0 .remove)), .tock, .op .event] ++
  [.op .take, .op .go, .op .go, .op .take, .op .take, .op .go, .op .go, .op .go] ++
  [.tick, .op (.dispatch (.item 0 .remove)), .tock] ++ handled ++ [.tick]

example : paced (todoCfg exTodo) 2 (.start (todoCfg exTodo)) exFrames = true ∧
    (exPaced (todoCfg exTodo) 2 exFrames).frames =
      [(exTodo, []), ([⟨false, "b"⟩, ⟨false, "c"⟩], [.item 0 .remove]),
       ([⟨false, "c"⟩], [.item 0 .remove, .item 0 .remove])] ∧
    (exPaced (todoCfg exTodo) 2 exFrames).drawing = true := by decide +kernel

def exBrowser (c : Cfg A Mo) (os : List (BOp A)) : Browser A Mo := (Browser.exec c (.start c) os).getD (.start c)

theorem exBrowser_reach {c : Cfg A Mo} {os : List (BOp A)} (h : (Browser.exec c (.start c) os).isSome = true) :
    Browser.Reach c (exBrowser c os) := by
  obtain ⟨b, hb⟩ := Option.isSome_iff_exists.1 h
  have main : ∀ (os : List (BOp A)) (b0 : Browser A Mo), Browser.Reach c b0 → Browser.exec c b0 os = some b →
      Browser.Reach c b := by
    intro os
    induction os with
    | nil => intro b0 r h; cases h; exact r
    | cons o os ih =>
      intro b0 r h
      simp only [Browser.exec, Option.bind_eq_some_iff] at h
      obtain ⟨b1, h1, h2⟩ := h
      exact ih b1 (r.step o h1) h2
  have : exBrowser c os = b := by unfold exBrowser; rw [hb]; rfl
  rw [this]
  exact main os _ .start hb

/-- The browser draws the next frame before it runs the timeout; the user clicks the same button again. -/
def exDouble : List (BOp Todo.DocAct) :=
  [.tick, .op (.user (.dispatch (.item 0 .remove))), .tock, .tick, .op (.user (.dispatch (.item 0 .remove))), .tock,
   .op .begin, .op (.go 0), .op (.go 0), .op .begin, .op (.go 0), .op (.go 0), .op .begin, .op (.go 0), .op (.go 0),
   .op (.go 0), .op .begin, .op (.go 0), .op (.go 0), .op (.go 0), .tick]

/-- C136 is FALSE in browsers: a frame is drawn that does not show what was dispatched in the one before; if the button of the
first item is clicked again, because it is still there, then another item is removed, too. -/
theorem C136_browser_false : ∃ b : Browser Todo.DocAct Todo.Doc, Browser.Reach (todoCfg exTodo) b ∧
    b.frames = [(exTodo, []), (exTodo, [.item 0 .remove]), ([⟨false, "c"⟩], [.item 0 .remove, .item 0 .remove])] ∧
    exTodo.map Todo.Item.text = ["a", "b", "c"] :=
  ⟨exBrowser (todoCfg exTodo) exDouble, exBrowser_reach (by decide +kernel), by decide +kernel, by decide +kernel⟩

/-- C136 is FALSE for two clicks in one frame: the second one acts on what the first one leaves.  (Removing the first item and
toggling the second toggles the third.) -/
theorem C136_two_false : ∃ w : Paced Todo.DocAct Todo.Doc, Paced.Reach (todoCfg exTodo) 2 w ∧
    w.frames = [(exTodo, []), ([⟨false, "b"⟩, ⟨true, "c"⟩], [.item 0 .remove, .item 1 .toggle])] :=
  ⟨exPaced (todoCfg exTodo) 2 ([.tick, .op (.dispatch (.item 0 .remove)), .op (.dispatch (.item 1 .toggle)), .tock,
    .op .take, .op .go, .op .go, .op .take, .op .go, .op .go, .op .take, .op .go, .op .go, .op .go, .op .take, .op .go, .op .go,
    .op .go, .tick]), exPaced_reach (by decide +kernel), by decide +kernel⟩

end Verif.Store
