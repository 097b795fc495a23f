import Verif.Transfer.Model

/-!
# What the receiver has to get
-/

namespace BaikalDB.Transfer.Spec

/-- The keys ascend in the order of their bytes. -/
def Ascending : List Rec → Prop
  | [] => True
  | [_] => True
  | a :: b :: l => BLt a.1 b.1 ∧ Ascending (b :: l)

/-- What has to be sent of the meta keys: for an open transaction all of its requests, everything
else as it is, except requests and marks. `entries` are the requests of a transaction. -/
def ofMeta (entries : Nat → Nat → List (Nat × Bytes)) (key : Nat → Nat → Bytes) :
    List MetaKv → List Rec
  | [] => []
  | .request _ :: l => ofMeta entries key l
  | .mark _ :: l => ofMeta entries key l
  | .begin t b :: l =>
    (entries t b).map (fun e => (key t e.1, e.2)) ++ ofMeta entries key l
  | .plain r :: l => r :: ofMeta entries key l

/-- All requests ask for the same number of bytes. -/
def Steady (n : Nat) : List Ev → Prop
  | [] => True
  | .ask size _ _ :: l => size = n ∧ Steady n l
  | .stray q :: l => q.size = n ∧ Steady n l

/-- The meta keys of a region as they are in RocksDB: in the order of their bytes, each with the
byte for its kind after the common beginning; ids and indexes fit their fields. -/
structure Layout (region : BitVec 64) (entries : Nat → Nat → List (Nat × Bytes))
    (l : List MetaKv) : Prop where
  sorted : l.Pairwise fun a b => BLt (a.key region) (b.key region)
  plain : ∀ r, MetaKv.plain r ∈ l → ∃ kind rest,
    r.1 = [0x01#8] ++ KeyEnc.memLE 8 (KeyEnc.toEndian64 (KeyEnc.encodeI64 region)) ++
      kind :: rest ∧ kind ≠ 0x03#8 ∧ kind ≠ 0x04#8
  begins : ∀ t b, MetaKv.begin t b ∈ l → t < 2 ^ 64 ∧
    (entries t b).Pairwise (fun x y => x.1 < y.1) ∧ ∀ e, e ∈ entries t b → e.1 < 2 ^ 63

/-- How many bytes the pairs take, with two sizes of eight bytes for each. -/
def bytes : List Rec → Nat
  | [] => 0
  | r :: l => r.1.length + r.2.length + 16 + bytes l

/-- The sizes fit the format. -/
def Fits (l : List Rec) : Prop := ∀ r, r ∈ l → r.1.length < 2 ^ 64 ∧ r.2.length < 2 ^ 64

end BaikalDB.Transfer.Spec
