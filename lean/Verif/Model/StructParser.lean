import Verif.Model.Sequence

/-!
# `struct_parser!`

parser/sequence.rs:317-506.  The macro takes a list of `field: parser` and `_: parser` (or, for tuple structs, of `parser` and
`_: parser`).  What a macro does at compile time is here a function on the list of fields; `κ` are the values of the named ones.
Simplification: fields are bound by their place in the list, not by name (two fields of one name do not compile).
-/

namespace Verif

variable {S : Strm} {σ τ α β κ γ : Type}

/-- The arguments of the macro: fields that are kept and fields that are ignored (`_ : parser`). -/
inductive Fields (S : Strm) : Type → Type → Type → Type 1 where
  | nil : Fields S Unit Unit Unit
  | skip {σ τ α β κ : Type} (p : Parser S σ α) (fs : Fields S τ β κ) : Fields S ((Option α × σ) × τ) (α × β) κ
  | keep {σ τ α β κ : Type} (p : Parser S σ α) (fs : Fields S τ β κ) : Fields S ((Option α × σ) × τ) (α × β) (α × κ)

/-- sequence.rs:317-341 `seq_parser_expr!`, 421-443 `seq_tuple_parser_impl!`: the parsers of all the fields, in the order
they are written. -/
def Fields.members : {τ β κ : Type} → Fields S τ β κ → Seq S τ β
  | _, _, _, .nil => .nil
  | _, _, _, .skip p fs => .cons p fs.members
  | _, _, _, .keep p fs => .cons p fs.members

/-- sequence.rs:343-367 `seq_parser_pattern!` and 369-395 `seq_parser_impl!` (the named fields are bound, `_` is not; the
struct gets what is bound), 397-419 `seq_tuple_extract!`. -/
def Fields.pick : {τ β κ : Type} → Fields S τ β κ → β → κ
  | _, _, _, .nil, _ => ()
  | _, _, _, .skip _ fs, t => fs.pick t.2
  | _, _, _, .keep _ fs, t => (t.1, fs.pick t.2)

/-- sequence.rs:486-506 `struct_parser!` whose first field is kept; `build` is the constructor of the struct. -/
def structKeep (p : Parser S σ α) (fs : Fields S τ β κ) (build : α × κ → γ) : Parser S (SeqSt σ τ α) γ :=
  map (tuple p fs.members) fun t => build ((Fields.keep p fs).pick t)

/-- sequence.rs:486-506 `struct_parser!` whose first field is ignored. -/
def structSkip (p : Parser S σ α) (fs : Fields S τ β κ) (build : κ → γ) : Parser S (SeqSt σ τ α) γ :=
  map (tuple p fs.members) fun t => build ((Fields.skip p fs).pick t)

end Verif
