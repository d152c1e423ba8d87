import Verif.Lemmas.TokenStoreIndex
import Verif.Lemmas.TokenStoreChain
import Mathlib.Data.List.Induction
/-!
# Token accounts of a mint that is not closed
-/
namespace LAM.Token
open Spec ProcStore
open TokenStore (TOp addFinalized)

variable {K : Pubkey → Prop}

/-- The invariant for a weaker condition. -/
theorem Fin.weaken {Q Q' : ProgramAccount → Prop} {s : TokenStore} {slots orig : List TokenAccount} (h : Fin Q s slots orig)
    (hq : ∀ x, Q x → Q' x) : Fin Q' s slots orig :=
  { h with
    slotsQ := fun t ht => (h.slotsQ t ht).imp id (fun ⟨a, b⟩ => ⟨hq _ a, b⟩)
    origQ := fun o ho => ⟨hq _ (h.origQ o ho).1, (h.origQ o ho).2⟩
    linked := fun pk hk => h.linked pk (fun p h1 h2 h3 => hk p h1 h2 (hq _ h3)) }

theorem Inv.weaken {Q Q' : ProgramAccount → Prop} {n : Nat} {s : TokenStore} {slots orig : List TokenAccount}
    (h : Inv Q n s slots orig) (hq : ∀ x, Q x → Q' x) : Inv Q' n s slots orig :=
  ⟨h.fin.weaken hq, h.proc.mono (fun _ hx => ⟨hx.1, hq _ hx.2.1, hx.2.2⟩), h.bound, h.cbound⟩

/-- After `a` is classified, only keys in `K` lose their index. -/
theorem grows_classified {X : Codecs} {s s' : TokenStore} {a : AccountData} {c : Commitment} {b : Bool} {x : ProgramAccount} {T : MintTable}
    (hc : s.table.counter + 2 < 2 ^ 32) (ht : a.account.owner = Spl.tokenId ∨ a.account.owner = Spl.token2022Id)
    (hx : classify X s.table a = .ok (some x, T)) (hq : Deletes K x) (hr : s.updateAccount X a c = .ok (b, s')) :
    Grows K T s'.table := by
  have hT : T.counter ≤ s.table.counter + 1 := by
    obtain ⟨-, h2, -⟩ := classify_some hx
    rcases h2 with ⟨rfl, -⟩ | ⟨t, mint, -, rfl, -⟩
    · omega
    · unfold MintTable.getOrCreate
      split
      · simp
      · simp [wrap32]; exact Nat.mod_le _ _
  have hi : s.isTokenAccount a = .ok true := by
    unfold TokenStore.isTokenAccount
    rw [if_pos (by rcases ht with h | h <;> simp [h])]
  unfold TokenStore.updateAccount at hr
  simp only [hi, Run.ok_bind, Bool.not_true, Bool.false_eq_true, if_false, hx] at hr
  split at hr
  · simp at hr; obtain ⟨-, rfl⟩ := hr; exact .refl _
  · simp only [Run.bind_eq_ok] at hr
    obtain ⟨s1, h2, hr⟩ := hr
    simp at hr; obtain ⟨-, rfl⟩ := hr
    exact grows_add (s := { s with table := T }) hq (by simp only; omega) h2

/-- `mk` is not deleted, and the token account `pk` has the index that `T` gives to `mk`. -/
def WithMint (pk mk : Pubkey) (T : MintTable) (x : ProgramAccount) : Prop :=
  Deletes (· ≠ mk) x ∧ ∀ t, x = .token t → t.pubkey = pk → T.index.find mk = some t.mint

/-- If `mk` is never closed, and whenever `pk` is submitted as a token account it is one of the mint `mk`, all its stored states
have the index of `mk`. -/
theorem run_mint {X : Codecs} {pk mk : Pubkey} (ops : List TOp) {s : TokenStore} (hn : ops.length < 2 ^ 31)
    (hq : ∀ o ∈ ops, ∀ a, o.account = some a → ∀ T x T', classify X T a = .ok (some x, T') → Deletes (· ≠ mk) x)
    (hm : ∀ o ∈ ops, ∀ a, o.account = some a → a.pubkey = pk → ∀ T t T', classify X T a = .ok (some (.token t), T') →
      (a.account.owner = Spl.tokenId ∨ a.account.owner = Spl.token2022Id) ∧ t.mint = (T.getOrCreate mk).1 ∧ T' = (T.getOrCreate mk).2)
    (hr : TokenStore.run X ops .empty = .ok s) :
    ∃ slots orig, Inv (WithMint pk mk s.table) ops.length s slots orig := by
  induction ops using List.reverseRecOn generalizing s with
  | nil => simp [TokenStore.run] at hr; subst hr; exact ⟨[], [], inv_empty _⟩
  | append_singleton ops o ih =>
    simp only [List.length_append, List.length_cons, List.length_nil] at hn ⊢
    obtain ⟨s1, h1, h2⟩ := (storeRun_append _ _).1 hr
    simp only [TokenStore.run, Run.bind_eq_ok] at h2
    obtain ⟨s2, h3, h2⟩ := h2
    cases h2
    obtain ⟨slots, orig, inv⟩ := ih (by omega) (fun o ho => hq o (by simp [ho])) (fun o ho => hm o (by simp [ho])) h1
    have hb := inv.bound
    have hcb := inv.cbound
    have hg : Grows (· ≠ mk) s1.table s.table :=
      grows_run [o] (inv.weaken (fun x hx => hx.1)) (by simp; omega) (fun o' ho' => hq o' (by simp at ho'; simp [ho']))
        (by simp [TokenStore.run, h3])
    refine step_inv (inv.weaken (Q' := WithMint pk mk s.table) fun x hx => ⟨hx.1, fun t e hp => hg.keep mk _ (by simp) (hx.2 t e hp)⟩)
      (by omega) ?_ h3
    intro a ha x T' hx
    have hd := hq o (by simp) a ha _ x T' hx
    refine ⟨hd, ?_⟩
    rintro t rfl hp
    obtain ⟨m1, m2, m3⟩ := hm o (by simp) a ha (by rw [← (classify_some hx).1]; exact hp) _ t T' hx
    have hg' : Grows (· ≠ mk) T' s.table := by
      cases o with
      | update a' c =>
        cases ha
        simp only [TokenStore.step, Run.bind_eq_ok] at h3
        obtain ⟨⟨b, s2⟩, h2, h1⟩ := h3
        simp at h1; subst h1
        exact grows_classified (by omega) m1 hx hd h2
      | init a' =>
        cases ha
        simp only [TokenStore.step, init_eq_update, Run.bind_eq_ok] at h3
        obtain ⟨⟨b, s2⟩, h2, h1⟩ := h3
        simp at h1; subst h1
        exact grows_classified (by omega) m1 hx hd h2
      | slot σ info c => cases ha
    refine hg'.keep mk _ (by simp) ?_
    rw [m3, m2]
    unfold MintTable.getOrCreate
    cases hf : s1.table.index.find mk with
    | some i => simp [hf]
    | none => simp [AMap.find_insert]

end LAM.Token
