"""Write a Lean script that runs the model (with real Keccak-256) on the official Ethereum trie
vectors kept in /repo/src/pymt/tests/test_vectors and compares root hashes.

Usage: python3 gen_vectors.py > Vectors.lean; cd ../lean && lake env lean ../validation/Vectors.lean
This is a test of the model, not part of any proof."""
import json, glob, os

def b(s):
    raw = bytes.fromhex(s[2:]) if s.startswith("0x") else s.encode()
    return "[" + ",".join(str(x) for x in raw) + "]"

print("import Verif.Model.Mpt\nimport Verif.Model.Keccak\nopen Pymt\n")
print("def go (secure : Bool) (ops : List (Bytes × Option Bytes)) : Bytes :=\n"
      "  (ops.foldl (fun t (k, v) => match v with\n"
      "    | some v => (MPT.update realEnv k v t).2\n"
      "    | none => (MPT.delete realEnv k t).2) (MPT.init realEnv Store.empty none secure)).rootHash realEnv\n")
for f in sorted(glob.glob("/repo/src/pymt/tests/test_vectors/*.json")):
    sec = "secure" in os.path.basename(f)
    try:
        d = json.load(open(f))
    except Exception as e:
        print("-- skipped", f, e); continue
    for name, case in d.items():
        if "root" not in case: continue
        ins = case["in"]
        if isinstance(ins, dict): ins = list(ins.items())
        ops = ", ".join("(%s, %s)" % (b(k), "none" if v is None else "some " + b(v)) for k, v in ins)
        print('#eval ("%s %s", go %s [%s] == (%s : Bytes))' % (os.path.basename(f), name, str(sec).lower(), ops, b(case["root"])))
