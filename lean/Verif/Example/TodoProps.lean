import Verif.Example.Todo

/-!
C124: the example `todo`.
-/

namespace Verif.Todo

variable {P : Type} [DecidableEq P]

/-! ### The list -/

/-- C124: what is added comes first, not done; nothing is added for an empty text. -/
theorem C124_add (s : Doc) (text : String) :
    (text ≠ "" → docUpdate s (.add text) = ⟨false, text⟩ :: s) ∧ docUpdate s (.add "") = s := by
  refine ⟨fun h => ?_, rfl⟩
  have : text.isEmpty = false := by
    cases he : text.isEmpty with
    | false => rfl
    | true => exact absurd (String.isEmpty_iff.1 he) h
  simp [docUpdate, this]

/-- C124: an item that is toggled is done if it was not, and the other way round; its text and all other items stay as they
are. -/
theorem C124_toggle (s : Doc) (i : Nat) :
    (docUpdate s (.item i .toggle)).length = s.length ∧
    (∀ j, j ≠ i → (docUpdate s (.item i .toggle))[j]? = s[j]?) ∧
    (∀ x, s[i]? = some x → (docUpdate s (.item i .toggle))[i]? = some ⟨!x.done, x.text⟩) ∧
    docUpdate (docUpdate s (.item i .toggle)) (.item i .toggle) = s := by
  by_cases hi : i ≥ s.length
  · have h : docUpdate s (.item i .toggle) = s := by simp [docUpdate, hi]
    rw [h]
    refine ⟨rfl, fun _ _ => rfl, fun x hx => ?_, h⟩
    exact absurd (List.getElem?_eq_some_iff.1 hx).1 (by omega)
  · have h : ∀ l : Doc, l.length = s.length → docUpdate l (.item i .toggle) = l.modify i (·.update .toggle) := by
      intro l hl
      simp only [docUpdate]
      rw [if_neg (by omega), if_neg (by decide)]
    have hl : (docUpdate s (.item i .toggle)).length = s.length := by rw [h s rfl]; simp
    refine ⟨hl, fun j hj => ?_, fun x hx => ?_, ?_⟩
    · have hij : ¬ i = j := fun e => hj e.symm
      rw [h s rfl, List.getElem?_modify]
      simp [hij]
    · rw [h s rfl, List.getElem?_modify, hx]
      simp [Item.update]
    · rw [h _ hl, h s rfl]
      apply List.ext_getElem?
      intro j
      rw [List.getElem?_modify, List.getElem?_modify]
      split
      · cases s[j]? with
        | none => rfl
        | some x => simp [Item.update]
      · simp

/-- C124: an item that is removed is gone; the ones before it stay where they are, those after it move up. -/
theorem C124_remove (l r : Doc) (x : Item) : docUpdate (l ++ x :: r) (.item l.length .remove) = l ++ r := by
  simp [docUpdate, List.eraseIdx_append_of_length_le]

/-- C124: an action for an item that is not there does nothing. -/
theorem C124_missing (s : Doc) (i : Nat) (a : ItemAct) (h : s.length ≤ i) : docUpdate s (.item i a) = s := by
  simp [docUpdate, h]

/-- C124: there is never an item without a text. -/
theorem C124_texts (s : Doc) (h : ∀ x ∈ s, x.text ≠ "") (as : List DocAct) : ∀ x ∈ as.foldl docUpdate s, x.text ≠ "" := by
  induction as generalizing s with
  | nil => exact h
  | cons a as ih =>
    refine ih _ ?_
    intro x hx
    cases a with
    | add text =>
      by_cases ht : text = ""
      · subst ht; rw [(C124_add s "").2] at hx; exact h x hx
      · rw [(C124_add s text).1 ht] at hx
        rcases List.mem_cons.1 hx with rfl | hx
        · exact ht
        · exact h x hx
    | item i a =>
      simp only [docUpdate] at hx
      split at hx
      · exact h x hx
      · split at hx
        · exact h x (List.mem_of_mem_eraseIdx hx)
        · obtain ⟨j, hj⟩ := List.getElem?_of_mem hx
          rw [List.getElem?_modify] at hj
          split at hj
          · cases hs : s[j]? with
            | none => rw [hs] at hj; cases hj
            | some y =>
              rw [hs] at hj
              have hy := h y (List.mem_of_getElem? hs)
              cases hj
              cases a <;> exact hy
          · exact h x (List.mem_of_getElem? (by simpa using hj))

example : ([.add "a", .add "", .add "b", .item 1 .toggle, .item 7 .remove, .add "c", .item 1 .remove] : List DocAct).foldl
    docUpdate [] = [⟨false, "c"⟩, ⟨true, "a"⟩] := by decide +kernel

/-! ### Files -/

/-- How many tasks the event loop runs. -/
def works : List (Ev P) → Nat
  | [] => 0
  | .work _ :: es => works es + 1
  | _ :: es => works es

/-- Tasks wait for their turn: what is behind `works es` others comes first afterwards. -/
theorem waits (ext : P → P) (es : List (Ev P)) : ∀ (s : Sys P) (l : List (Task P)) (t : Task P) (r : List (Task P)),
    s.queue = l ++ t :: r → works es = l.length → ∃ r', (s.run ext es).queue = t :: r' := by
  induction es with
  | nil =>
    intro s l t r hq hw
    cases l with
    | nil => exact ⟨r, hq⟩
    | cons _ _ => cases hw
  | cons e es ih =>
    intro s l t r hq hw
    show ∃ r', ((s.step ext e).run ext es).queue = t :: r'
    cases e with
    | dispatch a => exact ih _ l t (r ++ [.act a]) (by simp [Sys.step, hq]) hw
    | outside f c => exact ih _ l t r hq hw
    | work d =>
      cases l with
      | nil => cases hw
      | cons u l =>
        have hw' : works es = l.length := Nat.succ.inj hw
        cases u with
        | notify => exact ih _ l t r (by simp [Sys.step, hq]) hw'
        | act a => exact ih _ l t (r ++ _) (by simp only [Sys.step, hq]; simp; rfl) hw'
        | eff e =>
          cases e with
          | save m f =>
            refine ih _ l t r ?_ hw'
            simp only [Sys.step, hq]
            cases d <;> rfl
          | load f =>
            simp only [Sys.step, hq, List.cons_append, perform]
            split
            · exact ih _ l t (r ++ _) (by simp; rfl) hw'
            · exact ih _ l t r rfl hw'

/-- C124: what is saved is the document as it was when the action was handled, whatever was done to it until the file is
written, and the file is that of the action, with the extension `todo`. -/
theorem C124_save (ext : P → P) (s : Sys P) (file : P) (q : List (Task P)) (hq : s.queue = .act (.save file) :: q)
    (d : Disk) (es : List (Ev P)) (hw : works es = q.length) :
    let s' := ((s.step ext (.work d)).run ext es).step ext (.work .ok)
    s'.files (ext file) = some (.doc s.app.doc) ∧ (s.step ext (.work d)).app = ⟨s.app.doc, ext file⟩ := by
  have h1 : s.step ext (.work d) = { s with app := ⟨s.app.doc, ext file⟩, queue := q ++ [.eff (.save s.app.doc (ext file))] } := by
    simp only [Sys.step, hq, update]
  refine ⟨?_, by rw [h1]⟩
  obtain ⟨r, hr⟩ := waits ext es (s.step ext (.work d)) q (.eff (.save s.app.doc (ext file))) [] (by rw [h1]) hw
  simp only [Sys.step] at hr ⊢
  rw [hr]
  simp [perform, write]

/-- C124: what is loaded is what is in the file when it is read, and the document is that, exactly, once the action with it
was handled, whatever was done until then. -/
theorem C124_load (ext : P → P) (s : Sys P) (file : P) (q : List (Task P)) (hq : s.queue = .eff (.load file) :: q) {m : Doc}
    (hf : s.files file = some (.doc m)) (d d' : Disk) (es : List (Ev P)) (hw : works es = q.length) :
    (((s.step ext (.work d)).run ext es).step ext (.work d')).app = ⟨m, file⟩ := by
  have h1 : s.step ext (.work d) = { s with queue := q ++ [.act (.loaded file m)] } := by
    simp only [Sys.step, hq, perform, hf]
  obtain ⟨r, hr⟩ := waits ext es (s.step ext (.work d)) q (.act (.loaded file m)) [] (by rw [h1]) hw
  simp only [Sys.step] at hr ⊢
  rw [hr]
  rfl

/-- C124: a file that is not there, or cannot be read, changes nothing but is reported. -/
theorem C124_load_error (ext : P → P) (s : Sys P) (file : P) (q : List (Task P)) (hq : s.queue = .eff (.load file) :: q)
    (hf : ∀ m, s.files file ≠ some (.doc m)) (d : Disk) :
    s.step ext (.work d) = { s with queue := q, errors := s.errors ++ [file] } := by
  simp only [Sys.step, hq, perform]

/-- C124: an error while saving is reported; no other file changes, and neither does the document. -/
theorem C124_save_error (ext : P → P) (s : Sys P) (m : Doc) (file : P) (q : List (Task P))
    (hq : s.queue = .eff (.save m file) :: q) {d : Disk} (hd : d ≠ .ok) :
    (s.step ext (.work d)).errors = s.errors ++ [file] ∧ (s.step ext (.work d)).app = s.app ∧
    (∀ g, g ≠ file → (s.step ext (.work d)).files g = s.files g) ∧
    (d = .closed → (s.step ext (.work d)).files = s.files) := by
  simp only [Sys.step, hq, perform]
  cases d with
  | ok => exact absurd rfl hd
  | closed => exact ⟨rfl, rfl, fun _ _ => rfl, fun _ => rfl⟩
  | full => exact ⟨rfl, rfl, fun g hg => if_neg hg, fun h => by cases h⟩

/-- An app with a list, and a file with another one. -/
def exSys : Sys Nat :=
  ⟨⟨[⟨false, "new"⟩], 0⟩, [], fun f => if f = 1 then some (.doc [⟨true, "old"⟩]) else none, []⟩

/-- Save and load; meanwhile, the list changes. -/
example : ((exSys.run id [.dispatch (.save 2), .dispatch (.doc (.item 0 .toggle)), .work .ok, .work .ok, .work .ok]).files 2 =
      some (.doc [⟨false, "new"⟩])) ∧
    (exSys.run id ([.dispatch (.load 1)] ++ List.replicate 4 (.work .ok))).app = ⟨[⟨true, "old"⟩], 1⟩ ∧
    (exSys.run id ([.dispatch (.load 3)] ++ List.replicate 4 (.work .ok))).errors = [3] := by decide +kernel

/-- C124: but what was done while the file was loading is lost. -/
theorem C124_edits_lost_false : ∃ (s : Sys Nat) (es : List (Ev Nat)) (x : Item),
    es = [.dispatch (.load 1), .work .ok, .dispatch (.doc (.add "more")), .work .ok, .work .ok, .work .ok, .work .ok] ∧
    x ∈ (s.run id (es.take 5)).app.doc ∧ x ∉ (s.run id es).app.doc :=
  ⟨exSys, _, ⟨false, "more"⟩, rfl, by decide +kernel, by decide +kernel⟩

/-- C124: and if saving fails, what was in the file may be lost, and the path is that of the file that was not saved. -/
theorem C124_old_file_false : ∃ (s : Sys Nat) (es : List (Ev Nat)) (m : Doc), s.files 1 = some (.doc m) ∧
    es = [.dispatch (.save 1), .work .ok, .work .full] ∧ (s.run id es).files 1 = some .broken ∧ (s.run id es).app.path = 1 :=
  ⟨exSys, _, [⟨true, "old"⟩], rfl, rfl, by decide +kernel, by decide +kernel⟩

end Verif.Todo
