import Verif.Model.FilterJson
/-!
# Which JSON is which account filter
-/
namespace LAM.Spec

/-- `j` is an object with the value `v` at `k`. -/
def At (j : Json) (k : String) (v : Json) : Prop := ∃ l, j = .obj l ∧ l.lookup k = some v

/-- The key `k` is absent. -/
def Absent (j : Json) (k : String) : Prop := ∀ v, ¬ At j k v

/-- `j` is the pattern `d`: an object of one key. -/
inductive PatternJson : Json → MemcmpData → Prop
  | bytes (bs : Bytes) : PatternJson (.obj [("bytes", .arr (bs.map (fun b => .num b.toNat)))]) (.bytes bs)
  | base58 (s : Bytes) : PatternJson (.obj [("base58", .str s)]) (.base58 s)
  | base64 (s : Bytes) : PatternJson (.obj [("base64", .str s)]) (.base64 s)

/-- `j` is the sub-filter `f`. -/
inductive SubFilterJson : Json → AccountFilterType → Prop
  | datasize (n : Nat) : n < 2 ^ 64 → SubFilterJson (.obj [("datasize", .num n)]) (.datasize n)
  | memcmp (j dj : Json) (o : Nat) (d : MemcmpData) : o < 2 ^ 64 → At j "offset" (.num o) → At j "data" dj → PatternJson dj d →
      SubFilterJson (.obj [("memcmp", j)]) (.memcmp ⟨o, d⟩)
  | memcmpArray (dj : Json) (o : Nat) (d : MemcmpData) : o < 2 ^ 64 → PatternJson dj d →
      SubFilterJson (.obj [("memcmp", .arr [.num o, dj])]) (.memcmp ⟨o, d⟩)

/-- `j` is the text of the key. -/
def KeyJson (T : PkText) (j : Json) (pk : Pubkey) : Prop := ∃ s, j = .str s ∧ T.ofStr s = some pk

/-- Elementwise. -/
def Each (R : α → β → Prop) (l : List α) (m : List β) : Prop :=
  l.length = m.length ∧ ∀ (i : Nat) a b, l[i]? = some a → m[i]? = some b → R a b

/-- `j` is the account filter `f`: accounts that are not an array count as absent. -/
structure FilterJson (T : PkText) (j : Json) (f : AccountFilter) : Prop where
  accounts : (∃ l, At j "accounts" (.arr l) ∧ Each (KeyJson T) l f.accounts) ∨
    ((∀ l, ¬ At j "accounts" (.arr l)) ∧ f.accounts = [])
  program : (Absent j "programId" ∧ f.programId = none) ∨ ∃ v pk, At j "programId" v ∧ KeyJson T v pk ∧ f.programId = some pk
  filters : ((Absent j "filters" ∨ At j "filters" .null) ∧ f.filters = none) ∨
    ∃ l fs, At j "filters" (.arr l) ∧ Each SubFilterJson l fs ∧ f.filters = some fs

end LAM.Spec
