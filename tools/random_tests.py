"""Run tests of /repo/tests/merkle_bit.rs that use random keys on the model (not part of the build).

The keys are those of the tests: StdRng of rand 0.8 is ChaCha with 12 rounds.  The hash is a simple one.
Usage: python3 tools/random_tests.py        (in /verif, after lake build)
"""
import os, subprocess, tempfile
import struct
def rotl(x,n): return ((x<<n)|(x>>(32-n)))&0xffffffff
def block(key,ctr,rounds):
    st=[0x61707865,0x3320646e,0x79622d32,0x6b206574]+list(struct.unpack('<8I',key))+[ctr&0xffffffff,ctr>>32,0,0]
    x=st[:]
    def qr(a,b,c,d):
        x[a]=(x[a]+x[b])&0xffffffff; x[d]=rotl(x[d]^x[a],16)
        x[c]=(x[c]+x[d])&0xffffffff; x[b]=rotl(x[b]^x[c],12)
        x[a]=(x[a]+x[b])&0xffffffff; x[d]=rotl(x[d]^x[a],8)
        x[c]=(x[c]+x[d])&0xffffffff; x[b]=rotl(x[b]^x[c],7)
    for _ in range(rounds//2):
        qr(0,4,8,12);qr(1,5,9,13);qr(2,6,10,14);qr(3,7,11,15)
        qr(0,5,10,15);qr(1,6,11,12);qr(2,7,8,13);qr(3,4,9,14)
    return [(a+b)&0xffffffff for a,b in zip(x,st)]
assert block(bytes(32),0,20)[0]==0xade0b876
class Rng:
    def __init__(s,seed): s.k=seed; s.c=0; s.buf=[]
    def word(s):
        if not s.buf: s.buf=block(s.k,s.c,12); s.c+=1
        return s.buf.pop(0)
    def fill(s,n):
        b=b''.join(struct.pack('<I',s.word()) for _ in range((n+3)//4)); return b[:n]
    def gen8(s): return s.word()&0xff
def prepare(n,rng,L=32):
    keys=[];vals=[]
    for _ in range(n):
        keys.append(rng.fill(L)); vals.append(bytes(rng.gen8() for _ in range(L)))
    keys.sort()
    return keys,vals

def groups(seed, per, rounds):
    r = Rng(bytes([seed]) * 32)
    return [prepare(per, r) for _ in range(rounds)]

def fmt(gs):
    return ''.join(''.join(a.hex() + ' ' + b.hex() + '\n' for a, b in zip(k, v)) + '\n' for k, v in gs)

RUN = r'''
import Verif.Model.HashDB
import Verif.Model.PartitionPoint
import Verif.Model.Trees
open MerkleBit
def mix (bs : List UInt8) (seed : UInt64) : UInt64 := bs.foldl (fun (h : UInt64) (b : UInt8) => (h ^^^ b.toUInt64) * (1099511628211 : UInt64) + (h >>> (29 : UInt64))) seed
def bytesOf (x : UInt64) : List UInt8 := (List.range 8).map fun i => (x >>> (8 * i).toUInt64).toUInt8
theorem lenOf (a b c d : UInt64) : (bytesOf a ++ bytesOf b ++ bytesOf c ++ bytesOf d).length = 32 := by simp [bytesOf]
def hasher : Hasher 32 := ⟨List UInt8, fun _ => [], fun s d => s ++ d, fun s => ⟨bytesOf (mix s 1) ++ bytesOf (mix s 77) ++ bytesOf (mix s 12345) ++ bytesOf (mix s 999), lenOf _ _ _ _⟩⟩
def cfg : Config 32 (HashDB 32) (List UInt8) := ⟨hashDatabase 32, hasher, .ok, .ok, stdPartitionPoint 32, 160⟩
def unhex (s : String) : List UInt8 :=
  let d (c : Char) : Nat := if c.isDigit then c.toNat - 48 else c.toNat - 87
  let rec go : List Char → List UInt8
    | a :: b :: r => UInt8.ofNat (d a * 16 + d b) :: go r
    | _ => []
  go s.toList
def arr (l : List UInt8) : Arr 32 := if h : l.length = 32 then ⟨l, h⟩ else ⟨List.replicate 32 0, rfl⟩
def load (f : String) : IO (List (List (Arr 32 × List UInt8))) := do
  let t ← IO.FS.readFile f
  return ((t.splitOn "\n\n").filter (· ≠ "")).map fun g => ((g.splitOn "\n").filter (· ≠ "")).map fun l =>
    match l.splitOn " " with
    | [a, b] => (arr (unhex a), unhex b)
    | _ => (arr [], [])
def check (s : HashDB 32) (r : Arr 32) (g : List (Arr 32 × List UInt8)) : Bool :=
  match MerkleBit.get cfg s r (g.map Prod.fst) with
  | .ok m => g.all fun e => m.get? e.1 == some (some e.2)
  | .error _ => false
def main (args : List String) : IO Unit := do
  let gs ← load args[0]!
  let lim := args[1]!.toNat!
  let remv := args[2]! == "rem"
  let mut s := HashDB.open 32
  let mut prev : Option (Arr 32) := none
  let mut roots : List (Arr 32) := []
  let mut seen : List (List (Arr 32 × List UInt8)) := []
  let mut n := 0
  for g in gs.take lim do
    match MerkleBit.insert cfg prev (g.map Prod.fst) (g.map Prod.snd) s with
    | (.ok r, s') =>
      s := s'; prev := some r; roots := roots ++ [r]; seen := g :: seen
      let bad := seen.filter fun g => !check s r g
      if !bad.isEmpty then IO.println s!"round {n}: {bad.length} groups not read back"
    | (.error _, _) => IO.println s!"round {n}: error"; return
    n := n + 1
  IO.println s!"inserted {n} groups"
  if remv then
    let mut i := 0
    for r in (roots.take (lim - 1)) do
      match MerkleBit.remove cfg r s with
      | (.ok _, s') =>
        s := s'
        match MerkleBit.get cfg s r (gs[i]!.map Prod.fst) with
        | .ok m => if !(gs[i]!.all fun e => m.get? e.1 == some none) then IO.println s!"removed root {i} still readable"
        | .error _ => IO.println s!"removed root {i}: get fails"
      | (.error _, _) => IO.println s!"remove {i} failed"
      i := i + 1
    IO.println s!"removed {i}; items left {s.map.entries.length}"
    -- what is left of the last root
    match roots.getLast? with
    | some r => IO.println s!"removed: {(seen.filter fun g => !check s r g).length} groups of the last root lost"
    | none => pure ()
'''

# (test, seed, entries per insert, inserts, whether all roots but the last are removed)
TESTS = [("it_inserts_multiple_leaf_nodes_into_a_small_tree_with_existing_items", 0xC7, 2, 2, False),
         ("it_iterates_over_multiple_inserts_correctly", 0xEF, 8, 100, False),
         ("it_correctly_iterates_removals", 0xA8, 8, 100, True)]

if __name__ == "__main__":
    d = tempfile.mkdtemp()
    open(d + "/Run.lean", "w").write(RUN)
    lean = os.path.join(os.path.dirname(os.path.abspath(__file__)), "..", "lean")
    for name, seed, per, rounds, rem in TESTS:
        open(d + "/keys", "w").write(fmt(groups(seed, per, rounds)))
        out = subprocess.run(["lake", "env", "lean", "--run", d + "/Run.lean", d + "/keys", str(rounds), "rem" if rem else "x"],
                             cwd=lean, capture_output=True, text=True).stdout
        print(name)
        print("\n".join("  " + l for l in out.splitlines() if l.split(" ")[0] in ("round", "inserted", "removed", "removed:", "remove")))
