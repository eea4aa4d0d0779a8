import Verif.Example.Todo
import Verif.Extra.Cereal

/-!
The files of the example `todo`: `save` and `load` of `example/todo/model.cpp:52-71`, with the serialisation of the model,
`example/todo/model.hpp:40`, and of its items, `example/todo/item.hpp:38`.

The text of a JSON document is not modelled, only its tree.
-/

namespace Verif.Todo

open Verif.Extra (Node Codec Kind Err Any Fields)

/-- The values in a JSON document that are no arrays or objects. -/
inductive Json where
  | bool (b : Bool)
  | str (s : String)
  /-- a number, or `null` -/
  | other
deriving DecidableEq

/-- Loading a `bool` from JSON, an assumption about `cereal`. -/
def Json.bool? : Json → Option Bool
  | .bool b => some b
  | _ => none

/-- Loading a `std::string` from JSON, an assumption about `cereal`. -/
def Json.str? : Json → Option String
  | .str s => some s
  | _ => none

/-- `item::done`; its initializer is `false`, `example/todo/item.hpp:22`. -/
def doneCodec : Codec Json Bool := Extra.prim .bool Json.bool? false

/-- `item::text`, `example/todo/item.hpp:23`. -/
def textCodec : Codec Json String := Extra.prim .str Json.str? ""

/-- `LAGER_STRUCT(todo, item, done, text)`, `example/todo/item.hpp:38`. -/
def itemFields : List (String × Any Json) := [("done", ⟨Bool, doneCodec⟩), ("text", ⟨String, textCodec⟩)]

/-- An item in a file, `lager/extra/cereal/struct.hpp:65-85`. -/
def itemCodec : Codec Json (Fields itemFields) := Extra.struct true itemFields

/-- `LAGER_STRUCT(todo, model, todos)`, `example/todo/model.hpp:40`. -/
def docFields : List (String × Any Json) := [("todos", ⟨List (Fields itemFields), Extra.seq itemCodec⟩)]

/-- A list of items in a file, `lager/extra/cereal/struct.hpp:65-85`. -/
def docCodec : Codec Json (Fields docFields) := Extra.struct true docFields

/-- An item as the values of its fields. -/
def Item.toFields (x : Item) : Fields itemFields := (x.done, x.text, ())

/-- An item from the values of its fields. -/
def Item.ofFields (t : Fields itemFields) : Item := ⟨t.1, t.2.1⟩

/-- `save`, `example/todo/model.cpp:52-60`, with `save_inline`, `lager/extra/cereal/inline.hpp:77-81`: the members of the model
are the members of the document. -/
def saveFile (d : Doc) : Node Json := docCodec.save (d.map Item.toFields, ())

/-- `load`, `example/todo/model.cpp:62-71`, with `load_inline`, `lager/extra/cereal/inline.hpp:51-55`: a new model is loaded.
`none` is a file that cannot be opened, or that is no JSON: the archive throws. -/
def loadFile (k : Kind) : Option (Node Json) → Except Err Doc
  | none => .error .archive
  | some n => match docCodec.load k docCodec.fresh n with
    | (t, none) => .ok (t.1.map Item.ofFields)
    | (_, some e) => .error e

/-- What the program can make of a file. -/
def contentOf (k : Kind) (n : Option (Node Json)) : Content :=
  match loadFile k n with
  | .ok d => .doc d
  | .error _ => .broken

end Verif.Todo
