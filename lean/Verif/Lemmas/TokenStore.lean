import Verif.Model.TokenStore
import Verif.Lemmas.Processed
import Verif.Lemmas.TokenStorage
import Verif.Lemmas.TokenUtils
import Verif.Lemmas.Spl
/-!
# Invariant of the token program store
-/
namespace LAM

theorem AMap.length_insert_le {K V : Type} [DecidableEq K] (m : AMap K V) (k : K) (v : V) :
    (m.insert k v).length ≤ m.length + 1 := by
  induction m with
  | nil => simp [AMap.insert]
  | cons e t ih =>
    obtain ⟨a, b⟩ := e
    simp only [AMap.insert]
    split <;> simp
    omega

theorem AMap.length_insert_found {K V : Type} [DecidableEq K] {m : AMap K V} {k : K} {v w : V} (h : m.find k = some w) :
    (m.insert k v).length = m.length := by
  induction m with
  | nil => simp at h
  | cons e t ih =>
    obtain ⟨a, b⟩ := e
    simp only [AMap.insert, AMap.find] at *
    split
    · simp
    · rename_i hk
      rw [if_neg hk] at h
      simp [ih h]

namespace Token
open Spec ProcStore

/-! ## Classification -/

/-- What a classified account satisfies. -/
def ProgFits : ProgramAccount → Prop
  | .token t => TokenFits t ∧ t.isDeleted = false
  | .mint _ => True
  | .multisig m pk => m.signers.length ≤ 11 ∧ m.pubkey = pk
  | .deleted _ => True

theorem field_lt (bs : Bytes) (off k : Nat) : leNat (field bs off k) < 256 ^ k := by
  refine Nat.lt_of_lt_of_le (leNat_lt _) (Nat.pow_le_pow_right (by decide) ?_)
  unfold field
  rw [List.length_take]
  omega

theorem unpack_fits {bs : Bytes} {a : Spl.Account} (h : Spl.unpackAccount bs = some a) : AccountFits a := by
  rw [Spl.unpackAccount_iff] at h
  refine ⟨?_, ?_, ?_⟩
  · rw [← h.amount]; exact field_lt _ _ 8
  · intro n hn; rw [← h.native.2 n hn]; exact field_lt _ _ 8
  · rw [← h.delegatedAmount]; exact field_lt _ _ 8

theorem tokenOf_fits {bs : Bytes} {s : Spl.Account} (h : Spl.unpackAccount bs = some s) (a : AccountData) (p : Program)
    {i : Nat} (hi : i < 2 ^ 32) (b : Bool) {e : Option Bytes} (he : tail165 bs b = .ok e) : TokenFits (tokenOf a p s i e) := by
  have hf := unpack_fits h
  have hl := ((Spl.unpackAccount_iff _ _).1 h).length
  refine ⟨hi, hf.amount, ?_, hf.native, ?_⟩
  · intro d n hd
    simp only [tokenOf] at hd
    cases hx : s.delegate with
    | none => simp [hx] at hd
    | some k => simp [hx] at hd; rw [← hd.2]; exact hf.delegatedAmount
  · intro d hd
    simp only [tokenOf] at hd
    subst hd
    cases b with
    | false => simp [tail165] at he
    | true =>
      simp only [tail165, if_true, Run.bind_eq_ok] at he
      obtain ⟨x, hx, he⟩ := he
      simp at he
      subst he
      unfold slice at hx
      split at hx
      · simp at hx; subst hx; simp; omega
      · simp at hx

theorem classify_none {X : Codecs} {T T' : MintTable} {a : AccountData} (h : classify X T a = .ok (none, T')) : T' = T := by
  unfold classify at h
  split at h
  · simp at h
  · split at h
    · simp only [Run.bind_eq_ok] at h
      obtain ⟨bs, -, k, -, h⟩ := h
      split at h
      · simp at h; exact h.symm
      · split at h
        · simp at h; exact h.symm
        · simp only [Run.bind_eq_ok] at h
          obtain ⟨e, -, h⟩ := h
          simp at h
      · split at h
        · simp at h; exact h.symm
        · simp only [Run.bind_eq_ok] at h
          obtain ⟨e, -, h⟩ := h
          simp at h
      · split at h <;> simp at h
        exact h.symm
    · simp only [Run.bind_eq_ok] at h
      obtain ⟨bs, -, h⟩ := h
      split at h
      · split at h <;> simp at h
        exact h.symm
      · split at h
        · split at h <;> simp at h
          exact h.symm
        · split at h <;> simp at h
          exact h.symm

/-- What classification does: the public key is kept, at most one mint is looked up, and everything fits. -/
theorem classify_some {X : Codecs} {T T' : MintTable} {a : AccountData} {x : ProgramAccount}
    (h : classify X T a = .ok (some x, T')) :
    x.pubkey = a.pubkey ∧
    ((T' = T ∧ ∀ t, x ≠ .token t) ∨
      ∃ t mint, x = .token t ∧ T' = (T.getOrCreate mint).2 ∧ t.mint = (T.getOrCreate mint).1) ∧
    ((∀ m, (T.getOrCreate m).1 < 2 ^ 32) → ProgFits x) := by
  unfold classify at h
  split at h
  · simp only [Run.ok.injEq, Prod.mk.injEq, Option.some.injEq] at h
    obtain ⟨rfl, rfl⟩ := h
    exact ⟨rfl, .inl ⟨rfl, by simp⟩, fun _ => trivial⟩
  · rename_i hlive
    have hlive' : (a.account.lamports == 0) = false := by
      simp only [not_or] at hlive
      simpa using hlive.1
    split at h
    · simp only [Run.bind_eq_ok] at h
      obtain ⟨bs, -, k, -, h⟩ := h
      split at h
      · simp at h
      · split at h
        · simp at h
        · simp only [Run.bind_eq_ok] at h
          obtain ⟨e, -, h⟩ := h
          simp only [Run.pure_eq, Run.ok.injEq, Prod.mk.injEq, Option.some.injEq] at h
          obtain ⟨rfl, rfl⟩ := h
          exact ⟨rfl, .inl ⟨rfl, by simp⟩, fun _ => trivial⟩
      · split at h
        · simp at h
        · rename_i s hs
          simp only [Run.bind_eq_ok] at h
          obtain ⟨e, he, h⟩ := h
          simp only [Run.pure_eq, Run.ok.injEq, Prod.mk.injEq, Option.some.injEq] at h
          obtain ⟨rfl, rfl⟩ := h
          exact ⟨rfl, .inr ⟨_, _, rfl, rfl, rfl⟩, fun hT => ⟨tokenOf_fits hs a _ (hT _) _ he, hlive'⟩⟩
      · split at h
        · simp at h
        · rename_i m hm
          simp only [Run.pure_eq, Run.ok.injEq, Prod.mk.injEq, Option.some.injEq] at h
          obtain ⟨rfl, rfl⟩ := h
          refine ⟨rfl, .inl ⟨rfl, by simp⟩, fun _ => ⟨?_, rfl⟩⟩
          have := ((Spl.unpackMultisig_iff _ _).1 hm).count
          simp only [multisigOf, realSigners]
          exact this ▸ List.length_filter_le _ _
    · simp only [Run.bind_eq_ok] at h
      obtain ⟨bs, -, h⟩ := h
      split at h
      · split at h
        · simp at h
        · simp only [Run.pure_eq, Run.ok.injEq, Prod.mk.injEq, Option.some.injEq] at h
          obtain ⟨rfl, rfl⟩ := h
          exact ⟨rfl, .inl ⟨rfl, by simp⟩, fun _ => trivial⟩
      · split at h
        · split at h
          · simp at h
          · rename_i s hs
            simp only [Run.pure_eq, Run.ok.injEq, Prod.mk.injEq, Option.some.injEq] at h
            obtain ⟨rfl, rfl⟩ := h
            exact ⟨rfl, .inr ⟨_, _, rfl, rfl, rfl⟩, fun hT => ⟨tokenOf_fits hs a _ (hT _) false rfl, hlive'⟩⟩
        · split at h
          · simp at h
          · rename_i m hm
            simp only [Run.pure_eq, Run.ok.injEq, Prod.mk.injEq, Option.some.injEq] at h
            obtain ⟨rfl, rfl⟩ := h
            refine ⟨rfl, .inl ⟨rfl, by simp⟩, fun _ => ⟨?_, rfl⟩⟩
            have := ((Spl.unpackMultisig_iff _ _).1 hm).count
            simp only [multisigOf, realSigners]
            exact this ▸ List.length_filter_le _ _

/-! ## Number of unfinalized states -/

/-- Number of states waiting for finalization. -/
def pending (P : ProcStore) : Nat := (P.map (fun e => e.2.accounts.length)).sum

theorem pending_insert {P : ProcStore} (hs : BMap.Sorted P) (k : Nat) (e : BySlot) :
    pending (BMap.insert P k e) + (match BMap.find P k with | some e => e.accounts.length | none => 0) =
      pending P + e.accounts.length := by
  induction P with
  | nil => simp [BMap.insert, pending]
  | cons a t ih =>
    obtain ⟨k', e'⟩ := a
    simp only [BMap.Sorted, List.pairwise_cons] at hs
    simp only [BMap.insert, BMap.find]
    split
    · rename_i hlt
      rw [if_neg (by omega)]
      have : BMap.find t k = none := by
        cases hf : BMap.find t k with
        | none => rfl
        | some v => have := hs.1 _ (BMap.mem_of_find hf); simp at this; omega
      rw [this]
      simp [pending]; omega
    · split
      · rename_i heq
        subst heq
        simp [pending]; omega
      · rename_i hne
        rw [if_neg (fun e => hne e.symm)]
        have := ih hs.2
        simp [pending] at this ⊢; omega

theorem pending_erase {P : ProcStore} {k : Nat} {e : BySlot} (h : BMap.find P k = some e) :
    pending (BMap.erase P k) + e.accounts.length ≤ pending P := by
  induction P with
  | nil => simp at h
  | cons a t ih =>
    obtain ⟨k', e'⟩ := a
    have hle : pending (BMap.erase t k) ≤ pending t := by
      unfold pending BMap.erase
      clear ih h
      induction t with
      | nil => simp
      | cons b u ih =>
        rw [List.filter_cons]
        split <;> simp only [List.map_cons, List.sum_cons] <;> omega
    simp only [BMap.find] at h
    unfold BMap.erase at hle ⊢
    rw [List.filter_cons]
    split at h
    · rename_i heq
      cases h
      rw [if_neg (by simpa using heq)]
      simp [pending] at hle ⊢; omega
    · rename_i hne
      rw [if_pos (by simpa using hne)]
      have := ih h
      simp [pending, BMap.erase] at this ⊢; omega

theorem pending_dropWhile (P : ProcStore) (f : Nat × BySlot → Bool) : pending (P.dropWhile f) ≤ pending P := by
  induction P with
  | nil => simp
  | cons a t ih =>
    rw [List.dropWhile_cons]
    split
    · simp [pending] at ih ⊢; omega
    · simp

theorem length_collect (slot : Nat) (l : AMap Pubkey Processed) (found : Found) :
    (collect slot l found).length ≤ found.length + l.length := by
  induction l generalizing found with
  | nil => simp [collect]
  | cons a l ih =>
    simp only [collect]
    refine Nat.le_trans (ih _) ?_
    split
    · simp
    · have := AMap.length_insert_le found a.1 (a.2, slot)
      simp; omega

theorem pending_finalizeLoop (fuel : Nat) {P P' : ProcStore} {found found' : Found} {slot : Nat}
    (h : finalizeLoop fuel P found slot = .ok (P', found')) : found'.length + pending P' ≤ found.length + pending P := by
  induction fuel generalizing P found slot with
  | zero => simp [finalizeLoop] at h
  | succ n ih =>
    simp only [finalizeLoop] at h
    cases hf : BMap.find P slot with
    | none =>
      rw [hf] at h
      simp only [Run.ok.injEq, Prod.mk.injEq] at h
      obtain ⟨rfl, rfl⟩ := h
      omega
    | some e =>
      rw [hf] at h
      simp only at h
      have h1 := pending_erase hf
      have h2 := length_collect slot e.accounts found
      split at h
      · simp only [Run.ok.injEq, Prod.mk.injEq] at h
        obtain ⟨rfl, rfl⟩ := h
        omega
      · have := ih h
        omega

/-! ## The table of unfinalized accounts -/

/-- The table is sorted, keys are unique, every state is filed under its public key and satisfies `Q`. -/
structure ProcOk (Q : ProgramAccount → Prop) (P : ProcStore) : Prop where
  sorted : BMap.Sorted P
  distinct : ∀ k e, BMap.find P k = some e → e.accounts.Distinct
  key : ∀ k e pk x, BMap.find P k = some e → e.accounts.find pk = some x → x.account.pubkey = pk
  good : ∀ k e pk x, BMap.find P k = some e → e.accounts.find pk = some x → Q x.account

theorem procOk_nil (Q : ProgramAccount → Prop) : ProcOk Q [] :=
  ⟨List.Pairwise.nil, by simp, by simp, by simp⟩

theorem ProcOk.put {Q : ProgramAccount → Prop} {P : ProcStore} (h : ProcOk Q P) (k : Nat) (e : BySlot)
    (h1 : e.accounts.Distinct) (h2 : ∀ pk x, e.accounts.find pk = some x → x.account.pubkey = pk ∧ Q x.account) :
    ProcOk Q (BMap.insert P k e) := by
  refine ⟨BMap.sorted_insert h.sorted _ _, ?_, ?_, ?_⟩
  · intro k' e' he
    rw [BMap.find_insert] at he
    split at he
    · cases he; exact h1
    · exact h.distinct _ _ he
  · intro k' e' pk x he hx
    rw [BMap.find_insert] at he
    split at he
    · cases he; exact (h2 _ _ hx).1
    · exact h.key _ _ _ _ he hx
  · intro k' e' pk x he hx
    rw [BMap.find_insert] at he
    split at he
    · cases he; exact (h2 _ _ hx).2
    · exact h.good _ _ _ _ he hx

theorem ProcOk.insertAccount {Q : ProgramAccount → Prop} {P : ProcStore} (h : ProcOk Q P) {x : ProgramAccount} (hx : Q x)
    (wv slot : Nat) : ProcOk Q (P.insertAccount x.pubkey x wv slot).2 ∧
      pending (P.insertAccount x.pubkey x wv slot).2 ≤ pending P + 1 := by
  have put : ∀ e, BMap.find P slot = some e →
      ProcOk Q (BMap.insert P slot { e with accounts := e.accounts.insert x.pubkey ⟨x, wv⟩ }) ∧
      pending (BMap.insert P slot { e with accounts := e.accounts.insert x.pubkey ⟨x, wv⟩ }) ≤ pending P + 1 := by
    intro e he
    refine ⟨h.put _ _ (AMap.distinct_insert (h.distinct _ _ he) _ _) ?_, ?_⟩
    · intro pk y hy
      simp only [AMap.find_insert] at hy
      split at hy
      · rename_i e; cases hy; exact ⟨e, hx⟩
      · exact ⟨h.key _ _ _ _ he hy, h.good _ _ _ _ he hy⟩
    · have := pending_insert h.sorted slot { e with accounts := e.accounts.insert x.pubkey ⟨x, wv⟩ }
      rw [he] at this
      have := AMap.length_insert_le e.accounts x.pubkey ⟨x, wv⟩
      simp only at *
      omega
  unfold ProcStore.insertAccount
  cases hf : BMap.find P slot with
  | none =>
    simp only
    refine ⟨h.put _ _ ?_ ?_, ?_⟩
    · simp [AMap.Distinct]
    · intro pk y hy
      simp only [AMap.find] at hy
      split at hy
      · rename_i e; cases hy; exact ⟨e, hx⟩
      · simp at hy
    · have := pending_insert h.sorted slot ⟨[(x.pubkey, ⟨x, wv⟩)], none⟩
      rw [hf] at this
      simp at this ⊢
      omega
  | some e =>
    simp only
    split
    · split
      · exact put e hf
      · exact ⟨h, by simp⟩
    · exact put e hf

theorem ProcOk.updateSlotInfo {Q : ProgramAccount → Prop} {P : ProcStore} (h : ProcOk Q P) (info : SlotInfo) :
    ProcOk Q (P.updateSlotInfo info) ∧ pending (P.updateSlotInfo info) = pending P := by
  unfold ProcStore.updateSlotInfo
  cases hf : BMap.find P info.slot with
  | none =>
    simp only
    refine ⟨h.put _ _ AMap.distinct_nil (by simp), ?_⟩
    have := pending_insert h.sorted info.slot ⟨[], none⟩
    rw [hf] at this
    simp at this ⊢
    omega
  | some e =>
    simp only
    refine ⟨h.put _ _ (h.distinct _ e hf) (fun pk x hx => ⟨h.key _ _ _ _ hf hx, h.good _ _ _ _ hf hx⟩), ?_⟩
    have := pending_insert h.sorted info.slot { e with parent := some info.parent }
    rw [hf] at this
    simp only at this ⊢
    omega

theorem newest_good {Q : ProgramAccount → Prop} {P : ProcStore} (h : ProcOk Q P) {pk : Pubkey} {s : Nat} {x : Processed} {k : Nat}
    (hn : NewestOn P pk s x k) : x.account.pubkey = pk ∧ Q x.account := by
  induction hn with
  | here h1 h2 => exact ⟨h.key _ _ _ _ h1 h2, h.good _ _ _ _ h1 h2⟩
  | up _ _ _ _ ih => exact ih

theorem newest_mem {P : ProcStore} {pk : Pubkey} {s : Nat} {x : Processed} {k : Nat} (hn : NewestOn P pk s x k) :
    ∃ e, BMap.find P k = some e ∧ e.accounts.find pk = some x := by
  induction hn with
  | here h1 h2 => exact ⟨_, h1, h2⟩
  | up _ _ _ _ ih => exact ih

/-- Finalization of a slot: always returns; the result holds exactly the newest states on the recorded chain, one per public
key; the chain and all slots up to the finalized one are removed and nothing else changes. -/
theorem finalize_spec {Q : ProgramAccount → Prop} {P : ProcStore} (h : ProcOk Q P) (slot : Nat) :
    ∃ P' l, P.finalize slot = .ok (P', l) ∧ ProcOk Q P' ∧ l.length + pending P' ≤ pending P ∧
      (∀ x k, (x, k) ∈ l ↔ NewestOn P x.account.pubkey slot x k) ∧
      (l.map (fun e => e.1.account.pubkey)).Nodup ∧
      (∀ k, (k ≤ slot ∨ OnChain P slot k → BMap.find P' k = none) ∧
        (¬ (k ≤ slot ∨ OnChain P slot k) → BMap.find P' k = BMap.find P k)) := by
  obtain ⟨⟨P1, found⟩, hl⟩ := finalizeLoop_total (P.length + 1) P [] slot (by omega)
  obtain ⟨h1, h2, h3, -, h5⟩ := finalizeLoop_spec _ hl h.sorted AMap.distinct_nil
  have h5 : ∀ pk x k, AMap.find found pk = some (x, k) ↔ NewestOn P pk slot x k := fun pk => h5 pk rfl
  have hfind : ∀ k, (k ≤ slot ∨ OnChain P slot k → BMap.find (dropUpTo P1 slot) k = none) ∧
        (¬ (k ≤ slot ∨ OnChain P slot k) → BMap.find (dropUpTo P1 slot) k = BMap.find P k) := by
    intro k
    rw [find_dropUpTo h1]
    constructor
    · rintro (hk | hk)
      · rw [if_pos hk]
      · split
        · rfl
        · exact (h3 k).1 hk
    · intro hk
      rw [not_or] at hk
      rw [if_neg hk.1, (h3 k).2 hk.2]
  have hsub : ∀ k e, BMap.find (dropUpTo P1 slot) k = some e → BMap.find P k = some e := by
    intro k e he
    by_cases hk : k ≤ slot ∨ OnChain P slot k
    · rw [(hfind k).1 hk] at he; simp at he
    · rwa [← (hfind k).2 hk]
  refine ⟨dropUpTo P1 slot, found.map Prod.snd, by simp [finalize, hl], ?_, ?_, ?_, ?_, hfind⟩
  · exact ⟨BMap.sorted_dropWhile h1 _, fun k e he => h.distinct _ _ (hsub k e he),
      fun k e pk x he hx => h.key _ _ _ _ (hsub k e he) hx, fun k e pk x he hx => h.good _ _ _ _ (hsub k e he) hx⟩
  · have := pending_finalizeLoop _ hl
    have := pending_dropWhile P1 (fun e => decide (e.1 ≤ slot))
    simp only [List.length_map, dropUpTo] at *
    simp at *
    omega
  · intro x k
    constructor
    · intro hm
      obtain ⟨⟨pk, y⟩, hm, rfl⟩ := List.mem_map.1 hm
      have hn := (h5 pk x k).1 (AMap.find_of_mem h2 hm)
      have := (newest_good h hn).1
      rwa [this]
    · intro hn
      exact List.mem_map.2 ⟨_, AMap.mem_of_find ((h5 _ x k).2 hn), rfl⟩
  · rw [List.map_map]
    unfold List.Nodup
    rw [List.pairwise_map]
    refine List.Pairwise.imp_of_mem ?_ h2
    rintro ⟨a, x, k⟩ ⟨b, y, j⟩ ha hb hne
    have e1 := (newest_good h ((h5 a x k).1 (AMap.find_of_mem h2 ha))).1
    have e2 := (newest_good h ((h5 b y j).1 (AMap.find_of_mem h2 hb))).1
    simp only [Function.comp]
    rw [e1, e2]
    exact hne

end Token
end LAM
