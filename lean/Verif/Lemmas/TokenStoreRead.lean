import Verif.Lemmas.TokenStoreRun
import Verif.Props.TokenStorage
import Verif.Props.TokenUtils
/-!
# The token program store: reads
-/
namespace LAM.Token
open Spec ProcStore
open TokenStore (TOp)

/-! ## Conversions -/

theorem multisigToSolana_ok {m : MultiSig} (h : m.signers.length ≤ 11) (pk : Pubkey) (slot wv : Nat) :
    multisigToSolana m pk slot wv = .ok ⟨pk, solanaAccount m.lamports (Spl.Multisig.pack ⟨m.m, m.n, m.isInitialized,
      m.signers ++ List.replicate (11 - m.signers.length) Pubkey.default⟩) m.program, slot, wv⟩ := by
  simp [multisigToSolana, multisigBytes, h]

theorem tokenToSolana_ok {mints : AMap Nat MintAccount} {t : TokenAccount} {m : MintAccount} (hd : t.isDeleted = false)
    (hm : mints.find t.mint = some m) (slot wv : Nat) :
    tokenToSolana mints t slot wv = .ok (some ⟨t.pubkey, solanaAccount (Spl.rentMinimum (tokenData t m.pubkey).length)
      (tokenData t m.pubkey) t.program, slot, wv⟩) := by
  simp [tokenToSolana, hd, hm]

theorem tokenToSolana_ne_diverge (mints : AMap Nat MintAccount) (t : TokenAccount) (slot wv : Nat) :
    tokenToSolana mints t slot wv ≠ .diverge := by
  unfold tokenToSolana
  split
  · simp
  · cases mints.find t.mint <;> simp

theorem toSolana_ne_diverge (mints : AMap Nat MintAccount) (x : ProgramAccount) (slot wv : Nat) :
    x.toSolana mints slot wv ≠ .diverge := by
  cases x with
  | token t => exact tokenToSolana_ne_diverge mints t slot wv
  | mint m => simp [ProgramAccount.toSolana]
  | multisig m pk =>
    simp only [ProgramAccount.toSolana, multisigToSolana, multisigBytes]
    split <;> simp
  | deleted pk => simp [ProgramAccount.toSolana]

/-- The state can be converted without a panic. -/
def Convertible (mints : AMap Nat MintAccount) : ProgramAccount → Prop
  | .token t => t.isDeleted = true ∨ mints.find t.mint ≠ none
  | .multisig m _ => m.signers.length ≤ 11
  | _ => True

theorem toSolana_ok {mints : AMap Nat MintAccount} {x : ProgramAccount} (h : Convertible mints x) (slot wv : Nat) :
    ∃ r, x.toSolana mints slot wv = .ok r := by
  cases x with
  | token t =>
    simp only [ProgramAccount.toSolana, tokenToSolana]
    split
    · exact ⟨_, rfl⟩
    · rename_i hd
      cases hm : mints.find t.mint with
      | none => exact absurd hm (h.resolve_left hd)
      | some m => exact ⟨_, rfl⟩
  | mint m => exact ⟨_, rfl⟩
  | multisig m pk => exact ⟨_, by simp only [ProgramAccount.toSolana, multisigToSolana_ok h]; rfl⟩
  | deleted pk => exact ⟨_, rfl⟩

theorem toSolanaAll_ok {mints : AMap Nat MintAccount} (l : List (Processed × Nat))
    (h : ∀ e ∈ l, Convertible mints e.1.account) : ∃ r, toSolanaAll mints l = .ok r := by
  induction l with
  | nil => exact ⟨_, rfl⟩
  | cons a l ih =>
    obtain ⟨r, hr⟩ := toSolana_ok (h a (by simp)) a.2 a.1.wv
    obtain ⟨rs, hrs⟩ := ih (fun e he => h e (by simp [he]))
    obtain ⟨x, slot⟩ := a
    exact ⟨_, by simp only [toSolanaAll, hr, hrs, Run.ok_bind]; rfl⟩

theorem toSolanaAll_ne_diverge (mints : AMap Nat MintAccount) (l : List (Processed × Nat)) : toSolanaAll mints l ≠ .diverge := by
  induction l with
  | nil => simp [toSolanaAll]
  | cons a l ih =>
    obtain ⟨x, slot⟩ := a
    simp only [toSolanaAll]
    have := toSolana_ne_diverge mints x.account slot x.wv
    cases h1 : x.account.toSolana mints slot x.wv <;> simp_all
    cases h2 : toSolanaAll mints l <;> simp_all

/-! ## Finalized reads -/

/-- A finalized read shows the multisig, else the mint (a mint index without mint panics), else the token account. -/
theorem getFinalized_eq {Q : ProgramAccount → Prop} {s : TokenStore} {slots orig : List TokenAccount} (h : Fin Q s slots orig)
    (pk : Pubkey) :
    (∀ m, (recOf s slots pk).multi = some m → ∃ r, s.getFinalized pk = .ok (some r) ∧ multisigToSolana m pk s.finalizedSlot 0 = .ok r) ∧
    ((recOf s slots pk).multi = none → ∀ m, (recOf s slots pk).mint = some (some m) →
      s.getFinalized pk = .ok (some (mintToSolana m s.finalizedSlot 0))) ∧
    ((recOf s slots pk).multi = none → (recOf s slots pk).mint = some none → s.getFinalized pk = .panic) ∧
    ((recOf s slots pk).multi = none → (recOf s slots pk).mint = none → ∀ t, (recOf s slots pk).token = some t →
      s.getFinalized pk = tokenToSolana s.mints t s.finalizedSlot 0 ∧ t.isDeleted = false) ∧
    ((recOf s slots pk).multi = none → (recOf s slots pk).mint = none → (recOf s slots pk).token = none →
      s.getFinalized pk = .ok none) := by
  refine ⟨?_, ?_, ?_, ?_, ?_⟩
  · intro m hm
    simp only [recOf] at hm
    simp only [TokenStore.getFinalized, hm]
    rw [multisigToSolana_ok (h.multis pk m hm).1]
    exact ⟨_, rfl, rfl⟩
  · intro h1 m hm
    simp only [recOf, Option.map_eq_some_iff] at h1 hm
    obtain ⟨i, hi, hm⟩ := hm
    simp [TokenStore.getFinalized, h1, hi, hm]
  · intro h1 hm
    simp only [recOf, Option.map_eq_some_iff] at h1 hm
    obtain ⟨i, hi, hm⟩ := hm
    simp [TokenStore.getFinalized, h1, hi, hm]
  · intro h1 h2 t ht
    simp only [recOf, Option.map_eq_none_iff] at h1 h2 ht
    have hl : t.isDeleted = false := by
      obtain ⟨-, i, hi⟩ := (view_eq_some h.holds).1 ht
      exact h.live i t hi
    simp [TokenStore.getFinalized, h1, h2, getByPubkey_eq h.holds, ht, hl]
  · intro h1 h2 h3
    simp only [recOf, Option.map_eq_none_iff] at h1 h2 h3
    simp [TokenStore.getFinalized, h1, h2, getByPubkey_eq h.holds, h3]

/-- Every state reached in fewer than `2^31` calls satisfies the invariant. -/
theorem reach_inv {X : Codecs} {ops : List TOp} {s : TokenStore} (hn : ops.length < 2 ^ 31)
    (hr : TokenStore.run X ops .empty = .ok s) : ∃ slots orig, Inv (fun _ => True) ops.length s slots orig := by
  have := run_inv (X := X) ops (inv_empty (fun _ => True)) (by simpa using hn) (fun _ _ _ _ _ _ _ _ => trivial) hr
  simpa using this

theorem getFinalized_ne_diverge {Q : ProgramAccount → Prop} {s : TokenStore} {slots orig : List TokenAccount} (h : Fin Q s slots orig)
    (pk : Pubkey) : s.getFinalized pk ≠ .diverge := by
  unfold TokenStore.getFinalized
  rw [getByPubkey_eq h.holds]
  split
  · rename_i m hm
    rw [multisigToSolana_ok (h.multis pk m hm).1]
    simp
  · split
    · rename_i i _
      cases s.mints.find i <;> simp
    · simp only [Run.ok_bind]
      split
      · split
        · simp
        · exact tokenToSolana_ne_diverge _ _ _ _
      · simp

theorem getFinalized_congr {s s' : TokenStore} (h1 : s'.multisigs = s.multisigs) (h2 : s'.table = s.table) (h3 : s'.mints = s.mints)
    (h4 : s'.tokens = s.tokens) (h5 : s'.finalizedSlot = s.finalizedSlot) (pk : Pubkey) : s'.getFinalized pk = s.getFinalized pk := by
  unfold TokenStore.getFinalized
  rw [h1, h2, h3, h4, h5]

theorem getByPubkey_recOf {Q : ProgramAccount → Prop} {s : TokenStore} {slots orig : List TokenAccount} (h : Fin Q s slots orig)
    (pk : Pubkey) : s.tokens.getByPubkey pk = .ok (recOf s slots pk).token := getByPubkey_eq h.holds pk

theorem isToken_owned {s : TokenStore} {a : AccountData} {p : Program} (h : TokenProgramOwned a p) : s.isTokenAccount a = .ok true := by
  unfold TokenStore.isTokenAccount
  rw [if_pos]
  obtain ⟨-, h⟩ := h
  cases p <;> simp_all

/-- Submitting a live account of a token program at finalized commitment. -/
theorem update_finalized {X : Codecs} {s : TokenStore} {a : AccountData} {p : Program} (ho : TokenProgramOwned a p)
    {x : ProgramAccount} {T : MintTable} (hc : classify X s.table a = .ok (some x, T)) :
    s.updateAccount X a .finalized = (do return (true, ← TokenStore.addFinalized { s with table := T } x)) := by
  unfold TokenStore.updateAccount
  rw [isToken_owned ho]
  simp only [Run.ok_bind, Bool.not_true, Bool.false_eq_true, if_false, hc]
  rw [if_neg (by simp)]

end LAM.Token
