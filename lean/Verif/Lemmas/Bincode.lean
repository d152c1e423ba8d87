import Verif.Model.Bincode
import Verif.Spec.Snapshot
import Verif.Spec.History
import Verif.Lemmas.Gpa
/-!
# Lemmas about the snapshot encoding and snapshot loading
-/
namespace LAM
namespace Bincode
open Spec

theorem pow_eq : (256 : Nat) ^ 8 = 2 ^ 64 := by decide

theorem exact_u64 : Exact encU64 decU64 U64 := by
  have := exact_nat 8
  rw [pow_eq] at this
  exact this

theorem exact_bool : Exact encBool decBool (fun _ => True) := by
  refine (exact_map exact_byte _ (fun b : Bool => if b then 1 else 0) ?_).mono (fun _ => rfl) ?_
  · intro a b _
    cases b <;> simp <;> grind
  · intro b; cases b <;> simp

theorem exact_pubkey : Exact encPubkey decPubkey (fun _ => True) := by
  refine (exact_map (exact_takeN 32) _ (fun p : Pubkey => p.bytes) ?_).mono (fun _ => rfl) ?_
  · intro a p h
    simp only [h, dite_true, Option.some.injEq]
    constructor
    · rintro rfl; simp [h]
    · rintro ⟨rfl, -⟩; rfl
  · intro p; simp [p.size]

theorem exact_bytes : Exact encByteVec (decVec decByte) (fun l => U64 l.length) := by
  have := exact_byteVec
  rw [pow_eq] at this
  exact this

theorem exact_data : Exact encData decData DataFits := by
  have hb := exact_bytes
  have hp := exact_pair exact_bytes exact_u64
  intro bs d rest
  simp only [decData, Option.bind_eq_bind, Option.bind_eq_some_iff, Prod.exists]
  constructor
  · rintro ⟨tag, r, ht, h⟩
    obtain ⟨-, rfl⟩ := (exact_nat 4 _ _ _).1 ht
    split at h
    · simp only [Option.bind_eq_some_iff, Prod.exists, Option.pure_def, Option.some.injEq, Prod.mk.injEq] at h
      obtain ⟨x, r', hx, rfl, rfl⟩ := h
      obtain ⟨hf, rfl⟩ := (hb _ _ _).1 hx
      exact ⟨hf, by simp [encData]⟩
    · simp only [Option.bind_eq_some_iff, Prod.exists, Option.pure_def, Option.some.injEq, Prod.mk.injEq] at h
      obtain ⟨x, n, r', hx, rfl, rfl⟩ := h
      obtain ⟨hf, rfl⟩ := (hp _ _ _).1 hx
      exact ⟨hf, by simp [encData]⟩
    · simp only [Option.bind_eq_some_iff, Prod.exists, Option.pure_def, Option.some.injEq, Prod.mk.injEq] at h
      obtain ⟨x, n, r', hx, rfl, rfl⟩ := h
      obtain ⟨hf, rfl⟩ := (hp _ _ _).1 hx
      exact ⟨hf, by simp [encData]⟩
    · cases h
  · rintro ⟨hf, rfl⟩
    cases d with
    | uncompressed d =>
      refine ⟨0, encByteVec d ++ rest, (exact_nat 4 _ _ _).2 ⟨by decide, by simp [encData]⟩, ?_⟩
      simp only
      rw [hb.roundtrip hf]; rfl
    | lz4 b n =>
      refine ⟨1, encByteVec b ++ encU64 n ++ rest, (exact_nat 4 _ _ _).2 ⟨by decide, by simp [encData]⟩, ?_⟩
      simp only
      rw [hp.roundtrip (a := (b, n)) hf]; rfl
    | zstd b n =>
      refine ⟨2, encByteVec b ++ encU64 n ++ rest, (exact_nat 4 _ _ _).2 ⟨by decide, by simp [encData]⟩, ?_⟩
      simp only
      rw [hp.roundtrip (a := (b, n)) hf]; rfl

/-- All integers of the account fit. -/
def AccountFits (a : Account) : Prop := U64 a.lamports ∧ DataFits a.data ∧ U64 a.rentEpoch

theorem exact_account : Exact encAccount decAccount AccountFits := by
  refine (exact_map (exact_pair exact_u64 (exact_pair exact_data (exact_pair exact_pubkey
    (exact_pair exact_bool exact_u64)))) _
    (fun a : Account => (a.lamports, a.data, a.owner, a.executable, a.rentEpoch)) ?_).mono ?_ ?_
  · rintro ⟨l, d, o, e, r⟩ ⟨l', d', o', e', r'⟩ _
    simp
  · intro a; rfl
  · rintro ⟨l, d, o, e, r⟩; simp [AccountFits]

theorem exact_accountData : Exact encAccountData decAccountData Fits := by
  refine (exact_map (exact_pair exact_pubkey (exact_pair exact_account (exact_pair exact_u64 exact_u64))) _
    (fun a : AccountData => (a.pubkey, a.account, a.slot, a.wv)) ?_).mono ?_ ?_
  · rintro ⟨l, d, o, e⟩ ⟨l', d', o', e'⟩ _
    simp
  · intro a; rfl
  · rintro ⟨pk, a, s, w⟩
    constructor
    · simp only [true_and, and_true]
      rintro ⟨⟨h1, h2, h3⟩, h4, h5⟩
      exact ⟨h1, h2, h3, h4, h5⟩
    · rintro ⟨h1, h2, h3, h4, h5⟩
      exact ⟨⟨trivial, ⟨h1, h2, h3⟩, h4, h5⟩, rfl⟩

theorem exact_accounts : Exact serialize (decVec decAccountData) AllFit := by
  have := exact_vec exact_accountData
  rw [pow_eq] at this
  exact this

theorem deserialize_eq_some {bs : Bytes} {l : List AccountData} :
    deserialize bs = some l ↔ AllFit l ∧ ∃ rest, bs = serialize l ++ rest := by
  simp only [deserialize, Option.map_eq_some_iff, Prod.exists]
  constructor
  · rintro ⟨l', r, h, rfl⟩
    obtain ⟨hf, he⟩ := (exact_accounts _ _ _).1 h
    exact ⟨hf, r, he⟩
  · rintro ⟨hf, r, he⟩
    exact ⟨l, r, (exact_accounts _ _ _).2 ⟨hf, he⟩, rfl⟩

end Bincode

namespace Store
open Spec

/-- State of an initially empty store after loading `l`, all owned by `p`. -/
structure Loaded (p : Pubkey) (l : List AccountData) (s : Store) : Prop where
  accounts : s.accounts = l.map (fun a => ByCommitment.new a .finalized)
  index : ∀ pk, s.index pk = l.findIdx? (fun a => a.pubkey == pk)
  byOwner : (s.byOwner p).getD [] = List.range l.length

theorem loaded_empty (p : Pubkey) : Loaded p [] empty := ⟨rfl, fun _ => rfl, rfl⟩

theorem sinsert_end (n m : Nat) (h : n ≤ m) : sinsert natLt m (List.range n) = List.range n ++ [m] := by
  have : ∀ l : List Nat, (∀ x ∈ l, x < m) → sinsert natLt m l = l ++ [m] := by
    intro l
    induction l with
    | nil => intro _; rfl
    | cons y ys ih =>
      intro hl
      have hy := hl y (by simp)
      have h1 : natLt m y = false := by simp [natLt]; omega
      have h2 : natLt y m = true := by simp [natLt]; omega
      simp [sinsert, h1, h2, ih (fun x hx => hl x (by simp [hx]))]
  refine this _ fun x hx => ?_
  have := List.mem_range.1 hx
  omega

theorem loaded_step {F : Filters} {p : Pubkey} {l : List AccountData} {s : Store} (h : Loaded p l s)
    {a : AccountData} (hF : F.satisfies a = true) (ho : a.account.owner = p)
    (hn : ∀ b ∈ l, b.pubkey ≠ a.pubkey) :
    ∃ s', s.initializeOrUpdate F a = .ok s' ∧ Loaded p (l ++ [a]) s' := by
  have hi : s.index a.pubkey = none := by
    rw [h.index, List.findIdx?_eq_none_iff]
    intro b hb
    simpa using hn b hb
  have hlen : s.accounts.length = l.length := by simp [h.accounts]
  refine ⟨(updateVacant F s a .finalized).1, ?_, ?_⟩
  · simp [initializeOrUpdate, updateAccount, hF, maybeUpdateSlotStatus, hi]
  · refine ⟨?_, ?_, ?_⟩
    · simp [updateVacant, hF, addIndexToSlot, addAccountOwner, h.accounts]
    · intro pk
      simp only [updateVacant, hF, if_true, addIndexToSlot, addAccountOwner, List.length_append,
        List.length_singleton, Nat.add_sub_cancel, hlen, h.index]
      rw [List.findIdx?_append]
      by_cases hpk : pk = a.pubkey
      · subst hpk
        have := hi
        rw [h.index] at this
        simp [this]
      · have : (a.pubkey == pk) = false := by simpa using fun h => hpk h.symm
        simp [hpk, this]
    · simp only [updateVacant, hF, if_true, addIndexToSlot, addAccountOwner, List.length_append,
        List.length_singleton, Nat.add_sub_cancel, hlen, ho]
      simp only [Option.getD_some, setInsert, h.byOwner]
      rw [sinsert_end _ _ (Nat.le_refl _), List.range_succ]

theorem loaded_all {F : Filters} {p : Pubkey} (l : List AccountData) : ∀ (l0 : List AccountData) (s : Store),
    Loaded p l0 s → (∀ a ∈ l, F.satisfies a = true) → (∀ a ∈ l, a.account.owner = p) →
    ((l0 ++ l).map AccountData.pubkey).Nodup → ∃ s', initAll F s l = .ok s' ∧ Loaded p (l0 ++ l) s' := by
  induction l with
  | nil => intro l0 s h _ _ _; exact ⟨s, rfl, by simpa using h⟩
  | cons a l ih =>
    intro l0 s h hF ho hn
    obtain ⟨s1, h1, hl1⟩ := loaded_step h (F := F) (hF a (by simp)) (ho a (by simp)) (by
      intro b hb heq
      simp only [List.map_append, List.map_cons, List.nodup_append] at hn
      exact hn.2.2 _ (List.mem_map_of_mem hb) _ (by simp) heq)
    obtain ⟨s2, h2, hl2⟩ := ih (l0 ++ [a]) s1 hl1 (fun b hb => hF b (by simp [hb]))
      (fun b hb => ho b (by simp [hb])) (by simpa using hn)
    exact ⟨s2, by simp [initAll, h1, h2], by simpa using hl2⟩

theorem new_get (a : AccountData) (c : Commitment) : (ByCommitment.new a .finalized).get c = some a := by
  cases c <;> rfl

theorem loaded_view {p : Pubkey} {l : List AccountData} {s : Store} (h : Loaded p l s)
    (pk : Pubkey) (c : Commitment) :
    s.getAccount pk c = .ok ((l.find? (fun a => a.pubkey == pk)).bind shown) := by
  unfold getAccount
  rw [h.index]
  cases hf : l.findIdx? (fun a => a.pubkey == pk) with
  | none =>
    have : l.find? (fun a => a.pubkey == pk) = none := by
      rw [List.find?_eq_none]
      intro x hx
      have := (List.findIdx?_eq_none_iff.1 hf) x hx
      simp [this]
    simp [this]
  | some i =>
    obtain ⟨hi, hp, hlt⟩ := List.findIdx?_eq_some_iff_getElem.1 hf
    have hfind : l.find? (fun a => a.pubkey == pk) = some l[i] := by
      rw [List.find?_eq_some_iff_getElem]
      refine ⟨hp, i, hi, rfl, fun j hj => ?_⟩
      simpa using hlt j hj
    have hacc : s.accounts[i]? = some (ByCommitment.new l[i] .finalized) := by
      rw [h.accounts]; simp [hi]
    simp only [hacc, Run.unwrap_some, Run.ok_bind, new_get, hfind, Option.bind_some, shown]
    split <;> rfl

theorem gpaPass_loaded {X : Codecs} {p : Pubkey} {l : List AccountData} {s : Store} (h : Loaded p l s)
    (ho : ∀ a ∈ l, a.account.owner = p) (c : Commitment) (is : List Nat) (his : ∀ i ∈ is, i < l.length) :
    gpaPass X s c p none is = .ok (is.filterMap (fun i => l[i]?)) := by
  induction is with
  | nil => rfl
  | cons i is ih =>
    have hi := his i (by simp)
    have hacc : s.accounts[i]? = some (ByCommitment.new l[i] .finalized) := by
      rw [h.accounts]; simp [hi]
    simp only [gpaPass, hacc, Run.unwrap_some, Run.ok_bind, gpaOne, new_get,
      ih (fun j hj => his j (by simp [hj]))]
    simp [ho l[i] (by simp), hi]

theorem range_filterMap_getElem {α : Type} (l : List α) : (List.range l.length).filterMap (fun i => l[i]?) = l := by
  induction l with
  | nil => rfl
  | cons a l ih =>
    rw [List.length_cons, List.range_succ_eq_map, List.filterMap_cons]
    simp only [List.getElem?_cons_zero, List.filterMap_map]
    congr 1

end Store
end LAM
