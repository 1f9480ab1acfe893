import Verif.Model.Objects

/-!
# Specification: programs that use objects with any `encode_rlp()`
-/

namespace Pymt

variable {σ : Type}

/-- A step of a user's program: a call, or anything else, which changes its own state only. -/
inductive SiteOp (σ : Type) where
  | update (key : Bytes) (value : Thing)
  | delete (key : Bytes)
  | get (key : Bytes)
  | other (f : σ → σ)

/-- The key a step reads. -/
def SiteOp.reads : SiteOp σ → List Bytes
  | .get k => [k]
  | _ => []

namespace Site

/-- `EMPT({}, {}, secure=secure)`, and the user's program at its start. -/
def new (E : Env) (secure : Bool) (user : σ) : Site σ := { trie := MPT.new E secure, data := [], user := user }

/-- One step; exceptions are caught. -/
def step (E : Env) (B : UserCode σ) (s : Site σ) : SiteOp σ → Site σ
  | .update k v => (update E B k v s).2
  | .delete k => (delete E k s).2
  | .get k => (get E B k s).2
  | .other f => { s with user := f s.user }

/-- After a program. -/
def after (E : Env) (B : UserCode σ) (secure : Bool) (user : σ) (ops : List (SiteOp σ)) : Site σ :=
  ops.foldl (step E B) (new E secure user)

/-- An ordinary `EMPT` after a history of ordinary calls, next to a user's program in some state. -/
def plain (E : Env) (secure : Bool) (calls : List EOp) (user : σ) : Site σ :=
  { trie := (EMPT.after E secure calls).trie,
    data := (EMPT.after E secure calls).data.map fun e => (e.1, e.2.thing),
    user := user }

end Site

/-- What a step adds to the history of ordinary calls.  An `update` with an object counts after the calls its
`encode_rlp()` makes, with the bytes it returns, and does not count if it returns none.  A `get` of an object counts as
the calls its `encode_rlp()` makes. -/
def SiteOp.adds (E : Env) (B : UserCode σ) (secure : Bool) (h : List EOp × σ) : SiteOp σ → List EOp × σ
  | .update k (.obj id true true) =>
    let act := B id (Site.plain E secure h.1 h.2)
    (h.1 ++ act.calls ++ match act.reply with
      | .returns b => [.update k (.obj id true true b)]
      | _ => [], act.user)
  | .update _ (.obj _ _ _) => h
  | .update k (.bytes b) => (h.1 ++ [.update k (.bytes b)], h.2)
  | .update _ (.bytearray _) => h
  | .delete k => (h.1 ++ [.delete k], h.2)
  | .get k =>
    match econtents h.1 k with
    | some (.obj id _ _ _) =>
      let act := B id (Site.plain E secure h.1 h.2)
      (h.1 ++ act.calls, act.user)
    | _ => h
  | .other f => (h.1, f h.2)

/-- The ordinary calls of a program, with the state of the user's program at the end. -/
def ordinary (E : Env) (B : UserCode σ) (secure : Bool) (user : σ) (ops : List (SiteOp σ)) : List EOp × σ :=
  ops.foldl (SiteOp.adds E B secure) ([], user)

end Pymt
