/-!
The modules of the documentation, `doc/modularity.rst`: a module made of two, and a module that adds undo to any other.
-/

namespace Verif.Doc

/-! ### Two modules in one -/

/-- `app_model`, `doc/modularity.rst:64-68`. -/
structure App (F B : Type) where
  foo : F
  bar : B
  deriving DecidableEq

/-- `app_action`, `doc/modularity.rst:80-82`. -/
inductive AppAct (f b : Type) where
  | foo (a : f)
  | bar (a : b)
  deriving DecidableEq

variable {F B f b E : Type}

/-- The reducer without effects, `doc/modularity.rst:93-105`. -/
def updateApp (updateFoo : F → f → F) (updateBar : B → b → B) (app : App F B) : AppAct f b → App F B
  | .foo a => { app with foo := updateFoo app.foo a }
  | .bar a => { app with bar := updateBar app.bar a }

/-- The reducer with effects, `doc/modularity.rst:145-163`, with the names put right: `update_foo` is given `app.foo`, too.
`E` are effects; that those of a part can be used for the whole is C105. -/
def updateAppEff (updateFoo : F → f → F × E) (updateBar : B → b → B × E) (app : App F B) : AppAct f b → App F B × E
  | .foo a => let (newFoo, eff) := updateFoo app.foo a; ({ app with foo := newFoo }, eff)
  | .bar a => let (newBar, eff) := updateBar app.bar a; ({ app with bar := newBar }, eff)

/-- Actions one after another, with the effects. -/
def runEff {M A : Type} (r : M → A → M × E) : M → List A → M × List E
  | m, [] => (m, [])
  | m, a :: as =>
    let (m, e) := r m a
    let (m, es) := runEff r m as
    (m, e :: es)

/-! ### Undo for any module -/

/-- `history_action`, `doc/modularity.rst:199-206`. -/
inductive HAct (A : Type) where
  | doc (a : A)
  | undo
  | redo
  | goto_ (position : Nat)
  deriving DecidableEq

/-- `history_model`, `doc/modularity.rst:215-228`. -/
structure History (M : Type) where
  history : List M
  position : Nat
  deriving DecidableEq

variable {M A : Type}

/-- The constructor, `doc/modularity.rst:222-224`. -/
def History.new (init : M) : History M := ⟨[init], 0⟩

/-- The conversion to the document, `doc/modularity.rst:227`: `none` is an access out of range. -/
def History.shown (m : History M) : Option M := m.history[m.position]?

/-- `std::size_t`: numbers of 64 bits. -/
def sizeT (n : Int) : Nat := (n % 2 ^ 64).toNat

/-- `update_history` for `goto_action`, `doc/modularity.rst:260-264`. -/
def History.goTo (m : History M) (position : Nat) : History M :=
  if position ≥ 0 ∧ position < m.history.length then { m with position := position } else m

/-- `update_history`, `doc/modularity.rst:245-274`.  `none` is an access out of range. -/
def updateHistory [DecidableEq M] (r : M → A → M) (m : History M) : HAct A → Option (History M)
  | .undo => some (m.goTo (sizeT ((m.position : Int) - 1)))
  | .redo => some (m.goTo (sizeT ((m.position : Int) + 1)))
  | .goto_ p => some (m.goTo p)
  | .doc a =>
    match m.shown with
    | none => none
    | some old =>
      let doc := r old a
      if doc ≠ old then
        let position := m.position + 1
        some ⟨m.history.take position ++ [doc], position⟩
      else some m

/-- `update_history_with_effects`, `doc/modularity.rst:303-337`, the model of its result.  The effects are those of the
reducer.  Undo and redo are written as calls of `update_history`, which has no effects: `noop` is taken for them. -/
def updateHistoryEff (r : M → A → M × E) (noop : E) (m : History M) : HAct A → Option (History M × E)
  | .undo => some (m.goTo (sizeT ((m.position : Int) - 1)), noop)
  | .redo => some (m.goTo (sizeT ((m.position : Int) + 1)), noop)
  | .goto_ p => some (m.goTo p, noop)
  | .doc a =>
    match m.shown with
    | none => none
    | some old =>
      let (doc, eff) := r old a
      let position := m.history.length
      some (⟨m.history.take position ++ [doc], position⟩, eff)

/-- Actions one after another. -/
def runHistory [DecidableEq M] (r : M → A → M) : History M → List (HAct A) → Option (History M)
  | m, [] => some m
  | m, a :: as => (updateHistory r m a).bind fun m => runHistory r m as

/-- Actions one after another, with the effects that they have. -/
def runHistoryEff (r : M → A → M × E) (noop : E) : History M → List (HAct A) → Option (History M × List E)
  | m, [] => some (m, [])
  | m, a :: as => (updateHistoryEff r noop m a).bind fun p => (runHistoryEff r noop p.1 as).map fun q => (q.1, p.2 :: q.2)

end Verif.Doc
