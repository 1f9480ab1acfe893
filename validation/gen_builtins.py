"""Write a Lean script that compares the model of Python builtins (int(b, 16), repr of bytes and tuples,
bytes.fromhex, strict UTF-8 decoding, hex) with the interpreter running this script, on random and hand-picked inputs.

Usage: python3 gen_builtins.py > Builtins.lean; cd ../lean && lake env lean ../validation/Builtins.lean
Prints only `true`.  This is a test of the model, not part of any proof."""
import random

random.seed(7)

def b(raw):
    return "[" + ",".join(str(x) for x in raw) + "]"

def attempt(f, *a):
    try:
        return f(*a)
    except (ValueError, UnicodeDecodeError):
        return None

def draw(alphabet, n):
    return bytes(random.choice(alphabet) for _ in range(random.randrange(n)))

print("import Verif.Model.Equality\nopen Pymt\n")
print("def same {α} [BEq α] (x : Py α) (y : Option α) : Bool :=\n"
      "  match x, y with | .ok a, some c => a == c | .error _, none => true | _, _ => false\n")

ints = [b"", b"0", b"0x", b"0x_", b"0x_1", b"0x__1", b"_1", b"1_", b"1__2", b"1_2", b" 12 ", b"+ff", b"-0xA", b"--1",
        b"- 1", b"\t1\n", b"1 2", b"1\x00", b"\x001", b"0_x1", b"0X_f_f", b"+0x", b"0x 1", b"\x0b\x0c1\x1c"]
ints += [draw(b"  _+-0xX19afAFg\x00\t", 9) for _ in range(600)]
for s in ints:
    r = attempt(int, s, 16)
    print("#eval same (parseInt16 %s) %s" % (b(s), "none" if r is None else "(some (%d))" % r))

reprs = [b"", b"'", b'"', b"'\"", b"\\", bytes(range(256)), b"\t\n\r", b"\x7f\x80"] + [draw(b"'\"\\\t\n\r\x00a\x7f\xff ~", 8) for _ in range(200)]
for s in reprs:
    print("#eval reprBytes %s == %s" % (b(s), b(repr(s).encode())))
for n in range(5):
    t = tuple(draw(b"'a,) (", 5) for _ in range(n))
    print("#eval reprTuple reprBytes [%s] == %s" % (",".join(b(x) for x in t), b(repr(t).encode())))

hexes = [b"", b" ", b"0", b"00", b"0 0", b"00 11", b" 00", b"00 ", b"0g", b"AbcD", b"00\x0b11"] + [draw(b"019afAFg \t\n", 8) for _ in range(300)]
for s in hexes:
    r = attempt(bytes.fromhex, s.decode())
    print("#eval same (fromHex %s) %s" % (b(s), "none" if r is None else "(some %s)" % b(r)))

utf = [draw([0, 65, 0x7f, 0x80, 0x8f, 0x90, 0x9f, 0xa0, 0xbf, 0xc0, 0xc1, 0xc2, 0xdf, 0xe0, 0xe1, 0xec, 0xed, 0xee, 0xef, 0xf0, 0xf1, 0xf3, 0xf4, 0xf5, 0xff], 7) for _ in range(1500)]
utf += ["é€😀".encode(), "퟿\U0010ffff".encode()]
for s in utf:
    r = attempt(bytes.decode, s)
    print("#eval utf8Valid %s == %s" % (b(s), "false" if r is None else "true"))

p = {"proof_type": b"MT-POI", "timestamp": b"2", "target_key": b"'k", "root_hash": b"\x01", "proof": ((b"left", b"00"), (b"right", b"ff"))}
print("#eval Proof.dictRepr { type := %s, timestamp := %s, targetKey := %s, trieRoot := %s, proof := [.tuple [%s, %s], .tuple [%s, %s]] } == %s" % (
    b(p["proof_type"]), b(p["timestamp"]), b(p["target_key"]), b(p["root_hash"]), b(b"left"), b(b"00"), b(b"right"), b(b"ff"), b(str(p).encode())))
