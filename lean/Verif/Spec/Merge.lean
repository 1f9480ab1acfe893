import Verif.Model.Empt

/-!
# Merging storages
-/

namespace Pymt

/-- Python `{**d, **e}` or `d.update(e)` for dicts: the entries of `e` win (not code of `/repo`; what users do with the
dicts given as `storage` in `/repo/src/pymt/mpt.py:54-75` and `/repo/src/pymt/empt.py:118-178`). -/
def dmerge {β : Type} (d e : Dict β) : Dict β := e.foldl (fun d x => dset d x.1 x.2) d

end Pymt
