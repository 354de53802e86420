import Verif.Proof.Cbor
import Verif.Props.Backends
import Verif.Props.Codec
/-!
# C57: serialization of nodes with the other formats

`Serde.Format` is any format that describes itself (json, cbor, yaml, pickle, ron; see
`Model/Serde.lean`); `Serde.Json.format` and `Serde.Cbor.format` are two of them.  `Serde.Fits` says that the numbers in a node
are values of `u64`/`usize`, as they are for every Rust value.
-/

namespace MerkleBit
variable {N : Nat} {V : Type} {F : Serde.Format}
open Serde

/-- C57 is false: with the `json` feature there is a node whose encoding does not decode. -/
theorem C57_false : ∃ (n : Node 2) (bs : List UInt8), (Json.format.codec 2).encode n = .ok bs ∧
    (Json.format.codec 2).decode bs = .error (.exception "serde") :=
  ⟨⟨1, .leaf ⟨Toy.key 1, Toy.key 2⟩⟩, _, rfl, decode_write (by decide)⟩

/-- C57 fails for every such format and for every branch and every leaf: the node is written without an
error, and what was written is not read back. -/
theorem C57_branches_and_leaves_unreadable (F : Format) (n : Node N) (hn : Fits n)
    (hv : ∀ d, n.variant ≠ .data d) :
    ∃ bs, (F.codec N).encode n = .ok bs ∧ ∃ msg, (F.codec N).decode bs = .error (.exception msg) := by
  refine ⟨F.write (serNode n), by simp only [Format.codec, if_pos hn], "serde", ?_⟩
  rw [decode_write hn]
  split
  · next d h => exact absurd h (hv d)
  · rfl

example : Fits Toy.branchNode ∧ ∀ d, Toy.branchNode.variant ≠ .data d :=
  ⟨by decide, fun d h => by cases h⟩

/-- C57 for data nodes.  Missing for the full C57: branches and leaves, for which it is false. -/
theorem C57_data_round_trip_partial (F : Format) (n : Node N) (hn : Fits n) {d : Data}
    (hd : n.variant = .data d) :
    ∃ bs, (F.codec N).encode n = .ok bs ∧ (F.codec N).decode bs = .ok n := by
  refine ⟨F.write (serNode n), by simp only [Format.codec, if_pos hn], ?_⟩
  rw [decode_write hn, hd]

example : (Json.format.codec 2).encode ⟨1, .data ⟨[7, 200]⟩⟩ =
    .ok (Serde.name "{\"references\":1,\"node\":{\"Data\":{\"value\":[7,200]}}}") := by decide +kernel

/-- `v` is the only field called `s` among `fs`. -/
def Once (s : String) (fs : List (List UInt8 × SVal)) (v : SVal) : Prop :=
  fs.filter (fun f => f.1 = name s) = [(name s, v)]

theorem field_once {s : String} {v w : SVal} (h : field s v = some w) : ∃ fs, v = .map fs ∧ Once s fs w := by
  cases v with
  | map fs =>
    refine ⟨fs, rfl, ?_⟩
    simp only [field] at h
    split at h
    · next f hf =>
      injection h with h
      have : f ∈ fs.filter (fun f => f.1 = name s) := by rw [hf]; exact List.mem_singleton_self _
      have hk : f.1 = name s := by simpa using (List.mem_filter.1 this).2
      rw [Once, hf, ← h, ← hk]
    · cases h
  | _ => cases h

theorem mapM_serBytes : ∀ {xs : List SVal} {bs : List UInt8}, xs.mapM deByte = some bs →
    xs = bs.map (fun b => .num b.toNat)
  | [], bs, h => by
    simp at h
    subst h
    rfl
  | x :: xs, bs, h => by
    rw [List.mapM_cons] at h
    rcases hx : deByte x with _ | b
    · rw [hx] at h; cases h
    rcases hr : xs.mapM deByte with _ | bs'
    · rw [hx, hr] at h; cases h
    rw [hx, hr] at h
    injection h with h
    subst h
    rw [mapM_serBytes hr]
    cases x with
    | num n =>
      simp only [deByte] at hx
      split at hx
      · next hn =>
        injection hx with hx
        subst hx
        simp [Nat.mod_eq_of_lt hn]
      · cases hx
    | _ => cases hx

theorem deNum_eq {v : SVal} {n : Nat} (h : deNum v = some n) : v = .num n := by
  cases v with
  | num m =>
    simp only [deNum] at h
    split at h
    · injection h with h; rw [h]
    · cases h
  | _ => cases h

theorem deBytes_eq {v : SVal} {bs : List UInt8} (h : deBytes v = some bs) : v = serBytes bs := by
  cases v with
  | seq xs => rw [serBytes, ← mapM_serBytes h]
  | _ => cases h

theorem deArr_eq {v : SVal} {a : Arr N} (h : deArr N v = some a) : ∃ bs, v = .bytes bs ∧ Padded a bs := by
  cases v with
  | bytes bs =>
    injection h with h
    exact ⟨bs, rfl, by rw [← h]; rfl⟩
  | _ => cases h

/-- What the fields of a node say. -/
inductive Says : Variant N → SVal → Prop
  | data {d : Data} {gs : List (List UInt8 × SVal)} : Once "value" gs (serBytes d.value) →
    Says (.data d) (.map [(name "Data", .map gs)])
  | leaf {l : Leaf N} {gs : List (List UInt8 × SVal)} {ks ds : List UInt8} :
    Once "key" gs (.bytes ks) → Padded l.key ks → Once "data" gs (.bytes ds) → Padded l.data ds →
    Says (.leaf l) (.map [(name "Leaf", .map gs)])
  | branch {b : Branch N} {gs : List (List UInt8 × SVal)} {zs os ks : List UInt8} :
    Once "count" gs (.num b.count) → Once "zero" gs (.bytes zs) → Padded b.zero zs →
    Once "one" gs (.bytes os) → Padded b.one os → Once "split_index" gs (.num b.splitIndex) →
    Once "key" gs (.bytes ks) → Padded b.key ks → Says (.branch b) (.map [(name "Branch", .map gs)])

theorem once_of {α : Type} {s : String} {v : SVal} {f : SVal → Option α} {a : α}
    (h : (field s v).bind f = some a) : ∃ fs w, v = .map fs ∧ Once s fs w ∧ f w = some a := by
  obtain ⟨w, hw, ha⟩ := Option.bind_eq_some_iff.1 h
  obtain ⟨fs, rfl, h1⟩ := field_once hw
  exact ⟨fs, w, rfl, h1, ha⟩

theorem deVariant_says {v : SVal} {x : Variant N} (h : deVariant N v = some x) : Says x v := by
  unfold deVariant at h
  split at h
  · next k v =>
    split at h
    · next hk =>
      rcases hb : deBranch N v with _ | b <;> rw [hb] at h
      · cases h
      injection h with h
      subst h
      simp only [deBranch, Option.bind_eq_bind] at hb
      obtain ⟨count, h1, hb⟩ := Option.bind_eq_some_iff.1 hb
      obtain ⟨zero, h2, hb⟩ := Option.bind_eq_some_iff.1 hb
      obtain ⟨one, h3, hb⟩ := Option.bind_eq_some_iff.1 hb
      obtain ⟨split, h4, hb⟩ := Option.bind_eq_some_iff.1 hb
      obtain ⟨key, h5, hb⟩ := Option.bind_eq_some_iff.1 hb
      injection hb with hb
      subst hb
      obtain ⟨gs, w1, rfl, o1, e1⟩ := once_of h1
      obtain ⟨_, w2, e, o2, e2⟩ := once_of h2
      cases e
      obtain ⟨_, w3, e, o3, e3⟩ := once_of h3
      cases e
      obtain ⟨_, w4, e, o4, e4⟩ := once_of h4
      cases e
      obtain ⟨_, w5, e, o5, e5⟩ := once_of h5
      cases e
      obtain ⟨bs2, rfl, p2⟩ := deArr_eq e2
      obtain ⟨bs3, rfl, p3⟩ := deArr_eq e3
      obtain ⟨bs5, rfl, p5⟩ := deArr_eq e5
      rw [deNum_eq e1] at o1
      rw [deNum_eq e4] at o4
      rw [hk]
      exact .branch o1 o2 p2 o3 p3 o4 o5 p5
    split at h
    · next hk =>
      rcases hb : deLeaf N v with _ | b <;> rw [hb] at h
      · cases h
      injection h with h
      subst h
      simp only [deLeaf, Option.bind_eq_bind] at hb
      obtain ⟨key, h1, hb⟩ := Option.bind_eq_some_iff.1 hb
      obtain ⟨data, h2, hb⟩ := Option.bind_eq_some_iff.1 hb
      injection hb with hb
      subst hb
      obtain ⟨gs, w1, rfl, o1, e1⟩ := once_of h1
      obtain ⟨_, w2, e, o2, e2⟩ := once_of h2
      cases e
      obtain ⟨bs1, rfl, p1⟩ := deArr_eq e1
      obtain ⟨bs2, rfl, p2⟩ := deArr_eq e2
      rw [hk]
      exact .leaf o1 p1 o2 p2
    split at h
    · next hk =>
      rcases hb : deData v with _ | b <;> rw [hb] at h
      · cases h
      injection h with h
      subst h
      simp only [deData, Option.bind_eq_bind] at hb
      obtain ⟨val, h1, hb⟩ := Option.bind_eq_some_iff.1 hb
      injection hb with hb
      subst hb
      obtain ⟨gs, w1, rfl, o1, e1⟩ := once_of h1
      rw [deBytes_eq e1] at o1
      rw [hk]
      exact .data o1
    · cases h
  · cases h

/-- C57, the other way round: what the bytes say whenever a node is read, whoever wrote them.  Each of the
fields is there once, under its name, and the node holds what the field holds. -/
theorem C57_what_is_read (F : Format) {bs : List UInt8} {n : Node N} (h : (F.codec N).decode bs = .ok n) :
    ∃ fs v, F.read bs = some (.map fs) ∧ Once "references" fs (.num n.references) ∧ Once "node" fs v ∧
      Says n.variant v := by
  simp only [Format.codec] at h
  rcases hr : F.read bs with _ | v
  · rw [hr] at h; cases h
  rw [hr, Option.bind_some] at h
  rcases hd : deNode N v with _ | n
  · rw [hd] at h; cases h
  rw [hd] at h
  injection h with h
  subst h
  simp only [deNode, Option.bind_eq_bind] at hd
  obtain ⟨c, h1, hd⟩ := Option.bind_eq_some_iff.1 hd
  obtain ⟨x, h2, hd⟩ := Option.bind_eq_some_iff.1 hd
  injection hd with hd
  subst hd
  obtain ⟨fs, w1, rfl, o1, e1⟩ := once_of h1
  obtain ⟨_, w2, e, o2, e2⟩ := once_of h2
  cases e
  rw [deNum_eq e1] at o1
  exact ⟨fs, w2, rfl, o1, o2, deVariant_says e2⟩

/-- What is written of the fields of a node. -/
inductive Written.Fields : Variant N → SVal → Prop
  | data {d : Data} {gs : List (List UInt8 × SVal)} : Once "value" gs (serBytes d.value) →
    Fields (.data d) (.map [(name "Data", .map gs)])
  | leaf {l : Leaf N} {gs : List (List UInt8 × SVal)} : Once "key" gs (serBytes l.key.bytes) →
    Once "data" gs (serBytes l.data.bytes) → Fields (.leaf l) (.map [(name "Leaf", .map gs)])
  | branch {b : Branch N} {gs : List (List UInt8 × SVal)} : Once "count" gs (.num b.count) →
    Once "zero" gs (serBytes b.zero.bytes) → Once "one" gs (serBytes b.one.bytes) →
    Once "split_index" gs (.num b.splitIndex) → Once "key" gs (serBytes b.key.bytes) →
    Fields (.branch b) (.map [(name "Branch", .map gs)])

/-- C57: what is written of a node: each of its fields once, under its own name, arrays and values as
sequences of numbers.  This happens for every node whose numbers and lengths are below `2 ^ 64`, and for none
with a larger number. -/
theorem C57_what_is_written (F : Format) (n : Node N) :
    (n.references < 2 ^ 64 → (∀ b, n.variant = .branch b → b.count < 2 ^ 64 ∧ b.splitIndex < 2 ^ 64) →
      N < 2 ^ 64 → (∀ d, n.variant = .data d → d.value.length < 2 ^ 64) →
      ∃ bs fs v, (F.codec N).encode n = .ok bs ∧ F.read bs = some (.map fs) ∧
        Once "references" fs (.num n.references) ∧ Once "node" fs v ∧ Written.Fields n.variant v) ∧
    ∀ bs, (F.codec N).encode n = .ok bs → n.references < 2 ^ 64 ∧
      ∀ b, n.variant = .branch b → b.count < 2 ^ 64 ∧ b.splitIndex < 2 ^ 64 := by
  refine ⟨fun h1 h2 h3 h4 => ?_, fun bs h => ?_⟩
  · have hn : Fits n := by
      rcases n with ⟨refs, b | l | d⟩
      · exact ⟨h1, (h2 b rfl).1, (h2 b rfl).2, h3⟩
      · exact ⟨h1, h3⟩
      · exact ⟨h1, h4 d rfl⟩
    refine ⟨F.write (serNode n), _, _, by simp only [Format.codec, if_pos hn], F.reads_back N n hn, rfl, rfl, ?_⟩
    rcases n with ⟨refs, b | l | d⟩
    · exact .branch rfl rfl rfl rfl rfl
    · exact .leaf rfl rfl
    · exact .data rfl
  · simp only [Format.codec] at h
    split at h
    · next hn =>
      rcases n with ⟨refs, b | l | d⟩
      · exact ⟨hn.1, fun b' hb => by cases hb; exact ⟨hn.2.1, hn.2.2.1⟩⟩
      · exact ⟨hn.1, fun b' hb => by cases hb⟩
      · exact ⟨hn.1, fun b' hb => by cases hb⟩
    · cases h

/-- C57, json: only the whole text of a node is read as a node.  A text that was cut off anywhere is refused, and
so is one that goes on after the node (with anything but white space, which the model leaves out). -/
theorem C57_only_whole_texts (n : Node N) {bs : List UInt8} (h : (Json.format.codec N).encode n = .ok bs) :
    (∀ p q, bs = p ++ q → q ≠ [] → ∃ e, (Json.format.codec N).decode p = .error e) ∧
    ∀ q, (∃ b ∈ q, b ∉ [9, 10, 13, 32]) → ∃ e, (Json.format.codec N).decode (bs ++ q) = .error e := by
  have hbs : bs = Json.write (serNode n) := by
    simp only [Format.codec] at h
    split at h
    · injection h with h; exact h.symm
    · cases h
  have hread : Json.read bs = some (serNode n) := by rw [hbs]; exact Json.read_write (Json.plain_node n)
  have hno : ∀ p, Json.read p = none → ∃ e, (Json.format.codec N).decode p = .error e := by
    intro p hp
    refine ⟨.exception "serde", ?_⟩
    show (match (Json.read p).bind (deNode N) with | some n => _ | none => _) = _
    rw [hp]; rfl
  refine ⟨fun p q hpq hq => hno p ?_, fun q hq => hno _ ?_⟩
  · cases p with
    | nil => rfl
    | cons b p =>
      have hb : (b :: p).head? = some 123 := by
        have := Json.write_head n
        rw [← hbs, hpq] at this
        exact this
      cases hr : Json.read (b :: p) with
      | none => rfl
      | some x =>
        have := Json.read_whole hb (by rw [hr]; rfl) hq
        rw [← hpq, hread] at this
        cases this
  · obtain ⟨b, hb, -⟩ := hq
    exact Json.read_whole (by rw [hbs]; exact Json.write_head n) (by rw [hread]; rfl) (List.ne_nil_of_mem hb)

/-- The text of a data node, cut off, and followed by a brace. -/
example : ((Json.format.codec 2).encode ⟨1, .data ⟨[7]⟩⟩).toOption.isSome ∧
    ((Json.format.codec 2).decode (Serde.name "{\"references\":1,\"node\":{\"Data\":{\"value\":[7]}}}")).toOption =
      some ⟨1, .data ⟨[7]⟩⟩ ∧
    ((Json.format.codec 2).decode (Serde.name "{\"references\":1,\"node\":{\"Data\":{\"value\":[7]}}")).toOption =
      none ∧
    ((Json.format.codec 2).decode (Serde.name "{\"references\":1,\"node\":{\"Data\":{\"value\":[7]}}}}")).toOption =
      none := by decide +kernel

/-- C57, cbor: no text of a node that was cut off anywhere is read.  What follows the text is ignored, as
`from_reader` reads one item and no more. -/
theorem C57_cbor_texts (n : Node N) {bs : List UInt8} (h : (Cbor.format.codec N).encode n = .ok bs) :
    (∀ p q, bs = p ++ q → q ≠ [] → ∃ e, (Cbor.format.codec N).decode p = .error e) ∧
    ∀ q, (Cbor.format.codec N).decode (bs ++ q) = (Cbor.format.codec N).decode bs := by
  simp only [Format.codec] at h
  split at h
  · next hn =>
    injection h with hbs
    have hbs : Cbor.write (serNode n) = bs := hbs
    subst hbs
    refine ⟨fun p q hpq hq => ⟨.exception "serde", ?_⟩, fun q => ?_⟩
    · show (match (Cbor.read p).bind (deNode N) with | some n => _ | none => _) = _
      rw [Cbor.read_part (Cbor.small_node hn) hpq hq]; rfl
    · have h1 := Cbor.read_write (Cbor.small_node hn) q
      have h2 := Cbor.read_write (Cbor.small_node hn) []
      rw [List.append_nil] at h2
      show (match (Cbor.read _).bind (deNode N) with | some n => _ | none => _) =
        (match (Cbor.read _).bind (deNode N) with | some n => _ | none => _)
      rw [h1, h2]
  · cases h

/-- The CBOR of a data node with value 7, 200 and of a leaf: an array of numbers where the reader asks for a
byte string. -/
example : (Cbor.format.codec 2).encode ⟨1, .data ⟨[7, 200]⟩⟩ =
    .ok ([0xa2, 0x6a] ++ name "references" ++ [0x01, 0x64] ++ name "node" ++ [0xa1, 0x64] ++ name "Data" ++
      [0xa1, 0x65] ++ name "value" ++ [0x82, 0x07, 0x18, 0xc8]) ∧
    (Cbor.format.codec 2).encode ⟨300, .leaf ⟨Toy.key 258, Toy.key 772⟩⟩ =
    .ok ([0xa2, 0x6a] ++ name "references" ++ [0x19, 0x01, 0x2c, 0x64] ++ name "node" ++ [0xa1, 0x64] ++
      name "Leaf" ++ [0xa2, 0x63] ++ name "key" ++ [0x82, 0x01, 0x02, 0x64] ++ name "data" ++
      [0x82, 0x03, 0x04]) := by decide +kernel

/-- What is written is read back, or refused; what follows does not matter. -/
example : ((Cbor.format.codec 2).decode ([0xa2, 0x6a] ++ name "references" ++ [0x01, 0x64] ++ name "node" ++
      [0xa1, 0x64] ++ name "Data" ++ [0xa1, 0x65] ++ name "value" ++ [0x82, 0x07, 0x18, 0xc8])).toOption =
      some ⟨1, .data ⟨[7, 200]⟩⟩ ∧
    ((Cbor.format.codec 2).decode ([0xa2, 0x6a] ++ name "references" ++ [0x01, 0x64] ++ name "node" ++
      [0xa1, 0x64] ++ name "Data" ++ [0xa1, 0x65] ++ name "value" ++ [0x82, 0x07, 0x18, 0xc8, 0xff])).toOption =
      some ⟨1, .data ⟨[7, 200]⟩⟩ ∧
    ((Cbor.format.codec 2).decode ([0xa2, 0x6a] ++ name "references" ++ [0x01, 0x64] ++ name "node" ++
      [0xa1, 0x64] ++ name "Data" ++ [0xa1, 0x65] ++ name "value" ++ [0x82, 0x07, 0x18])).toOption = none ∧
    ((Cbor.format.codec 2).decode ([0xa2, 0x6a] ++ name "references" ++ [0x19, 0x01, 0x2c, 0x64] ++ name "node" ++
      [0xa1, 0x64] ++ name "Leaf" ++ [0xa2, 0x63] ++ name "key" ++ [0x82, 0x01, 0x02, 0x64] ++ name "data" ++
      [0x82, 0x03, 0x04])).toOption = none := by decide +kernel

/-- A leaf as text. -/
example : (Json.format.codec 2).encode ⟨1, .leaf ⟨Toy.key 258, Toy.key 772⟩⟩ =
    .ok (Serde.name "{\"references\":1,\"node\":{\"Leaf\":{\"key\":[1,2],\"data\":[3,4]}}}") := by
  decide +kernel

/-- A text in which a field is repeated is no node. -/
example : (Json.format.codec 2).decode
      (name "{\"references\":1,\"node\":{\"Data\":{\"value\":[7]}},\"references\":1}") =
      .error (.exception "serde") ∧
    (Json.format.codec 2).decode (name "{\"node\":{\"Data\":{\"value\":[7]}},\"references\":1}") =
      .ok ⟨1, .data ⟨[7]⟩⟩ := by decide +kernel

/-! ## What this does to a tree on RocksDB -/

variable {cfg : Config N (RocksDB N) V} {env : RocksEnv N} {s : RocksDB N}

/-- The contents of the database that a tree with this format leaves behind: it starts empty, and
`insert` and `remove` keep it so, whatever their arguments and results.  A restart loses what is queued. -/
theorem C57_written (hdb : cfg.db = rocksDatabase (F.codec N) env) :
    Written F (RocksDB.open N) ∧
    (∀ s, Written F s → ∀ prev keys values, Written F (insert cfg prev keys values s).2) ∧
    (∀ s, Written F s → ∀ r, Written F (remove cfg r s).2) ∧
    ∀ s : RocksDB N, Written F s → Written F { s with pending := some [] } :=
  ⟨Written.open, fun _ h => h.insertCall hdb, fun _ h => h.removeCall hdb,
    fun _ h => ⟨h.1, fun x b hb => by simp [queued] at hb⟩⟩

/-- C57 on RocksDB: no read of a value ever succeeds, no proof is ever produced, and no version is ever
built on top of another one. -/
theorem C57_nothing_is_read (hdb : cfg.db = rocksDatabase (F.codec N) env) (h : Written F s) (r : Arr N) :
    (∀ k v, getOne cfg s r k ≠ .ok (some v)) ∧
    (∀ ks m k v, get cfg s r ks = .ok m → m.get? k ≠ some (some v)) ∧
    (∀ k p, generateInclusionProof cfg s r k ≠ .ok p) ∧
    ∀ keys values r', (insert cfg (some r) keys values s).1 ≠ .ok r' := by
  have hg : ∀ {x n}, cfg.db.getNode s x = .ok (some n) → ∃ d, n.variant = .data d := by
    rw [hdb]; exact h.getNode
  refine ⟨fun k v => ?_, fun ks m k v => ?_, fun k p => ?_, fun keys values r' => ?_⟩
  · rw [getOne, getOneLoop, if_neg (by omega)]
    cases hr : cfg.db.getNode s r with
    | error e => simp
    | ok o =>
      cases o with
      | none => simp [getOneLoop]
      | some n =>
        obtain ⟨d, hd⟩ := hg hr
        simp [hd]
  · rw [get]
    split
    · intro hm; cases hm; simp [AMap.get?, AMap.empty]
    · cases hr : cfg.db.getNode s r with
      | error e => simp
      | ok o =>
        cases o with
        | none =>
          intro hm
          cases hm
          rw [generateLeafMap_get]
          split <;> simp
        | some n =>
          obtain ⟨d, hd⟩ := hg hr
          simp [traversalFuel, getLoop, hd]
  · refine fun hp => absurd (generateInclusionProof_ok hp) ?_
    rw [inclusionProof, proofLoop, if_neg (by omega)]
    cases hr : cfg.db.getNode s r with
    | error e => simp
    | ok o =>
      cases o with
      | none => simp
      | some n =>
        obtain ⟨d, hd⟩ := hg hr
        simp [hd]
  · unfold insert
    split
    · simp [M.throw]
    · split
      · simp [M.throw]
      · change ((M.bind (insertLeaves cfg _ _) _) s).1 ≠ _
        have hw := h.insertLeaves hdb (valueMap keys values) (sortKeys keys)
        unfold M.bind
        rcases hl : insertLeaves cfg (valueMap keys values) (sortKeys keys) s with ⟨res, s1⟩
        rw [hl] at hw
        cases res with
        | error e => simp
        | ok nodes =>
          have he := hw.extend hdb r (sortKeys keys) (keyMapOf (sortKeys keys) nodes)
          change ((M.bind (generateTreerefs cfg r _ _) _) s1).1 ≠ _
          unfold M.bind
          rcases hl : generateTreerefs cfg r (sortKeys keys) (keyMapOf (sortKeys keys) nodes) s1
            with ⟨res2, s2⟩
          rw [hl] at he
          cases res2 with
          | error e => simp
          | ok v => exact absurd rfl (he v)

theorem script_inserts (C : DbContract cfg.db) : ∀ (sts : List (Step N V)) (rs : List (Res (Arr N)))
    (s : RocksDB N) (H : List (HIn N)) (R : List (Arr N)), Inserts cfg C H R [] s →
    (∀ r, .ok r ∈ rs → r ∈ R) →
    ∃ R', Inserts cfg C (hashedByScript cfg sts rs s ++ H) R' [] (runScript cfg sts rs s).2 ∧
      ∀ r, .ok r ∈ (runScript cfg sts rs s).1 → r ∈ R' := by
  intro sts
  induction sts with
  | nil => intro rs s H R h hr; exact ⟨R, h, hr⟩
  | cons st sts ih =>
    intro rs s H R h hr
    rw [hashedByScript, runScript]
    cases hroot : st.root? rs with
    | none => exact ih rs s H R h hr
    | some prev =>
      dsimp only
      rw [List.append_assoc]
      refine ih _ _ _ _ (h.any (s' := (insert cfg prev st.keys st.values s).2)
        (res := (insert cfg prev st.keys st.values s).1) rfl) ?_
      intro r hr'
      rw [List.mem_append, List.mem_singleton] at hr'
      rcases hr' with hr' | hr'
      · exact List.mem_append_right _ (hr r hr')
      · rw [← hr']; simp [returned]

theorem script_written (hdb : cfg.db = rocksDatabase (F.codec N) env) : ∀ (sts : List (Step N V))
    (rs : List (Res (Arr N))) (s : RocksDB N), Written F s → Written F (runScript cfg sts rs s).2 := by
  intro sts
  induction sts with
  | nil => intro rs s h; exact h
  | cons st sts ih =>
    intro rs s h
    rw [runScript]
    cases hroot : st.root? rs with
    | none => exact ih rs s h
    | some prev => exact ih _ _ (h.insertCall hdb _ _ _)

/-- C57 on RocksDB: after any sequence of `insert` calls on an empty database, every root that one of
them returned is unreadable: `get_one`, `get` and `generate_inclusion_proof` report an error for all
keys. -/
theorem C57_returned_roots_unreadable (hdb : cfg.db = rocksDatabase (F.codec N) env) (hN : 0 < N)
    (hpp : cfg.pp.Lawful) (hroom : cfg.Room) (sts : List (Step N V))
    (hcf : CollisionFree cfg.hasher (Among (hashedByScript cfg sts [] (RocksDB.open N)))) {r : Arr N}
    (hr : .ok r ∈ (runScript cfg sts [] (RocksDB.open N)).1) :
    ∃ msg, (∀ k, getOne cfg (runScript cfg sts [] (RocksDB.open N)).2 r k = .error (.exception msg)) ∧
      (∀ ks, ks ≠ [] → get cfg (runScript cfg sts [] (RocksDB.open N)).2 r ks = .error (.exception msg)) ∧
      ∀ k, generateInclusionProof cfg (runScript cfg sts [] (RocksDB.open N)).2 r k =
        .error (.exception msg) := by
  have hw := script_written hdb sts [] (RocksDB.open N) Written.open
  have hg : ∃ msg, cfg.db.getNode (runScript cfg sts [] (RocksDB.open N)).2 r = .error (.exception msg) := by
    refine hw.root hdb ?_
    obtain ⟨db, hasher, enc, dec, pp, depth⟩ := cfg
    dsimp only at hdb
    subst hdb
    obtain ⟨R, h1, h2⟩ := script_inserts (contract F env)
      (cfg := ⟨rocksDatabase (F.codec N) env, hasher, enc, dec, pp, depth⟩) sts [] (RocksDB.open N) [] []
      (.start rfl rfl) (fun r hr => by cases hr)
    rw [List.append_nil] at h1
    exact (inserts_inv hN hpp h1 hcf).2.2 r (h2 r hr)
  obtain ⟨msg, hg⟩ := hg
  refine ⟨msg, fun k => ?_, fun ks hks => ?_, fun k => ?_⟩
  · rw [getOne, getOneLoop, if_neg (by omega), hg]
  · rw [get, if_neg (by simpa using hks), hg]
  · rw [generateInclusionProof_room hroom, inclusionProof, proofLoop, if_neg (by omega), hg]

namespace Toy

/-- `cfg` on RocksDB with JSON nodes. -/
def json : Config 2 (RocksDB 2) (List UInt8) :=
  Toy.cfg.withDb (rocksDatabase (Json.format.codec 2) (.reliable 2))

/-- A script of which two calls return a root: two versions are written, neither can be built upon. -/
def jsonScript : List (Step 2 (List UInt8)) :=
  [⟨none, ks1, vs1⟩, ⟨some 0, ks2, vs2⟩, ⟨none, [key 9], [[5]]⟩]

example : json.db = rocksDatabase (Json.format.codec 2) (.reliable 2) ∧ json.pp.Lawful ∧
    CollisionFree json.hasher (Among (hashedByScript json jsonScript [] (RocksDB.open 2))) ∧
    .ok r1 ∈ (runScript json jsonScript [] (RocksDB.open 2)).1 ∧
    (runScript json jsonScript [] (RocksDB.open 2)).1.length = 3 :=
  ⟨rfl, sane.pp, collisionFree_of_check (by decide +kernel), by decide +kernel, by decide +kernel⟩

end Toy
end MerkleBit
