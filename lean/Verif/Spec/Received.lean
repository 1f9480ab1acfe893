import Verif.Spec.Partial

/-!
# Specification: tries received from somebody else
-/

namespace Pymt

/-- `t'` was decoded from the bytes `b`, which may come from anybody, and has the root hash of `t`; no hash collisions
between the nodes `t` wrote, the nodes in `b`, and the two roots (which are hashed if they are short). -/
structure Received (E : Env) (b : Bytes) (t' t : MPT) : Prop where
  decoded : MPT.decode E b = .ok t'
  hash : t'.rootHash E = t.rootHash E
  coll : CollFree E (Item.encode (.str []) :: t'.root.getD [] :: t.root.getD [] ::
    (t.store.written ++ t'.store.kv.map (·.2)))

end Pymt
