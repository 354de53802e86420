/-!
# Prelude of the model

Shared vocabulary: Rust `Result` with panics made explicit, `&mut self` state
threading that keeps the state on errors, and `HashMap`.
-/

namespace MerkleBit

/-- Ways a call can fail.  `exception` models `Exception` (src/traits.rs:205-220, the message is
`details`); `panic` models a Rust panic (index out of range, arithmetic overflow in a checked
build); `outOfFuel` is not a behaviour of the code: it marks an exhausted fuel argument of a model
loop and property C25 shows that it does not occur. -/
inductive Err where
  | exception (msg : String)
  | panic (what : String)
  | outOfFuel
deriving DecidableEq, Repr

/-- `BinaryMerkleTreeResult<T>` (src/merkle_bit.rs:24). -/
abbrev Res (α : Type) := Except Err α

/-- A computation with access to `&mut self`: the state is kept when the result is an error,
because Rust does not roll back. -/
def M (σ α : Type) := σ → Res α × σ

namespace M
variable {σ α β : Type}

/-- `Ok(a)`. -/
def pure (a : α) : M σ α := fun s => (.ok a, s)

/-- Sequencing with the `?` operator. -/
def bind (m : M σ α) (f : α → M σ β) : M σ β := fun s =>
  match m s with
  | (.ok a, s') => f a s'
  | (.error e, s') => (.error e, s')

instance : Monad (M σ) where
  pure := M.pure
  bind := M.bind

/-- `return Err(e)`. -/
def throw (e : Err) : M σ α := fun s => (.error e, s)

/-- A computation that only reads `self`. -/
def read (f : σ → Res α) : M σ α := fun s => (f s, s)

/-- A pure `Result` used with `?`. -/
def lift (r : Res α) : M σ α := fun s => (r, s)

end M

/-- `isize::MAX` on a 64-bit platform. -/
def isizeMax : Nat := 2 ^ 63 - 1

/-- `Vec::with_capacity(n)` and `VecDeque::with_capacity(n)` for elements of `size` bytes: they panic
when more than `isize::MAX` bytes are asked for.  That the memory is there is not modelled. -/
def withCapacity (n size : Nat) : Res Unit :=
  if n * size ≤ isizeMax then .ok () else .error (.panic "capacity overflow")

/-- `HashMap<K, V>`: only keyed access is modelled (iteration order is never observed by the code,
except in src/merkle_bit.rs:489 where the result is sorted). -/
structure AMap (κ ν : Type) where
  entries : List (κ × ν)
deriving Repr

namespace AMap
variable {κ ν : Type} [DecidableEq κ]

/-- `HashMap::new()`. -/
def empty : AMap κ ν := ⟨[]⟩

/-- `map.get(&k).cloned()`. -/
def get? (m : AMap κ ν) (k : κ) : Option ν :=
  (m.entries.find? (fun e => e.1 = k)).map (·.2)

/-- `map.remove(&k)`, the remaining map. -/
def erase (m : AMap κ ν) (k : κ) : AMap κ ν :=
  ⟨m.entries.filter (fun e => ¬ e.1 = k)⟩

/-- `map.insert(k, v)`. -/
def insert (m : AMap κ ν) (k : κ) (v : ν) : AMap κ ν :=
  ⟨(k, v) :: (m.erase k).entries⟩

end AMap

end MerkleBit
