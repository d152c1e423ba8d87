import Verif.Lemmas.ProgramQuery
import Verif.Lemmas.ProgramRead
import Verif.Spec.ProgramList
/-!
# Facts about lists at unfinalized commitments
-/
namespace LAM.Props
open Spec Token Sim ProcStore
open TokenStore (TOp)

variable {X : Codecs}

theorem toSolana_pubkey {mints : AMap Nat MintAccount} {x : ProgramAccount} {slot wv : Nat} {r : AccountData}
    (h : x.toSolana mints slot wv = .ok (some r)) : r.pubkey = x.pubkey := by
  cases x with
  | token t => obtain ⟨-, m, -, rfl⟩ := tokenToSolana_some h; rfl
  | mint m => cases h; rfl
  | multisig m pk =>
    simp only [ProgramAccount.toSolana, multisigToSolana, Run.bind_eq_ok] at h
    obtain ⟨a, ⟨b, -, h1⟩, h⟩ := h
    cases h1; cases h; rfl
  | deleted pk => cases h

theorem newestOn_found {P : ProcStore} {pk : Pubkey} {t k : Nat} {x : Processed} (h : NewestOn P pk t x k) :
    ∃ e, BMap.find P k = some e ∧ e.accounts.find pk = some x := by
  induction h with
  | here h1 h2 => exact ⟨_, h1, h2⟩
  | up _ _ _ _ ih => exact ih

theorem newest_found {P : ProcStore} {pk : Pubkey} {c : Commitment} {t k : Nat} {x : Processed} (h : Newest P pk c t x k) :
    ∃ e, BMap.find P k = some e ∧ e.accounts.find pk = some x := by
  cases c with
  | finalized => exact absurd h id
  | confirmed => exact newestOn_found h
  | processed =>
    rcases h with ⟨-, h, -⟩ | ⟨-, h⟩
    · exact h
    · exact newestOn_found h

/-- A read shows the account asked for. -/
theorem read_pubkey {Q : ProgramAccount → Prop} {n : Nat} {s : TokenStore} {slots orig : List TokenAccount} (h : Inv Q n s slots orig)
    {pk : Pubkey} {c : Commitment} {r : AccountData} (hr : s.getAccount pk c = .ok (some r)) : r.pubkey = pk := by
  have hfin : s.getFinalized pk = .ok (some r) → r.pubkey = pk := by
    intro hr
    obtain ⟨e1, e2, e3, e4, e5⟩ := getFinalized_eq h.fin pk
    cases hm : (recOf s slots pk).multi with
    | some m =>
      obtain ⟨r', h1, h2⟩ := e1 m hm
      rw [hr] at h1; cases h1
      simp only [multisigToSolana, Run.bind_eq_ok] at h2
      obtain ⟨b, -, h2⟩ := h2
      cases h2; rfl
    | none =>
      cases hi : (recOf s slots pk).mint with
      | some o =>
        cases o with
        | none => rw [e3 hm hi] at hr; cases hr
        | some m =>
          rw [e2 hm m hi] at hr
          cases hr
          simp only [recOf, Option.map_eq_some_iff] at hi
          obtain ⟨i, h1, h2⟩ := hi
          exact h.fin.idx_inj _ _ i (h.fin.mints_idx i m h2) h1
      | none =>
        cases ht : (recOf s slots pk).token with
        | none => rw [e5 hm hi ht] at hr; cases hr
        | some t =>
          rw [(e4 hm hi t ht).1] at hr
          obtain ⟨-, m, -, rfl⟩ := tokenToSolana_some hr
          exact ((view_eq_some h.fin.holds).1 ht).1
  by_cases hc : c = .finalized
  · subst hc; exact hfin hr
  · cases hq : s.processed.getAccounts [pk] c s.confirmedSlot with
    | panic => exact absurd hq (getAccounts_no_panic _ _ hc _)
    | diverge => simp only [TokenStore.getAccount, if_neg hc, hq] at hr; cases hr
    | ok q =>
      obtain ⟨e1, e2⟩ := getAccount_eq h.proc.sorted pk hc hq
      by_cases hx : ∃ x k, Newest s.processed pk c s.confirmedSlot x k
      · obtain ⟨x, k, hx⟩ := hx
        rw [e1 x k hx] at hr
        obtain ⟨e, g1, g2⟩ := newest_found hx
        rw [toSolana_pubkey hr]
        exact h.proc.key k e pk x g1 g2
      · rw [e2 (fun x k hx' => hx ⟨x, k, hx'⟩)] at hr
        exact hfin hr

/-- If the finalized query is answered with accounts, so is that at the other commitments, unless it panics or does not end. -/
theorem query_answered {s : TokenStore} {σ : Orders} {program : Pubkey} {l : Option (List AccountFilterType)} {fs : List AccountData}
    {c : Commitment} (hf : s.getProgramAccounts X σ program l .finalized = .ok (.ok fs)) (h1 : s.getProgramAccounts X σ program l c ≠ .panic)
    (h2 : s.getProgramAccounts X σ program l c ≠ .diverge) : ∃ rs, s.getProgramAccounts X σ program l c = .ok (.ok rs) := by
  by_cases hc : c = .finalized
  · subst hc; exact ⟨fs, hf⟩
  cases hg : s.getProgramAccounts X σ program l c with
  | panic => exact absurd hg h1
  | diverge => exact absurd hg h2
  | ok r =>
    obtain ⟨hp, hfin⟩ := gpa_finalized hf
    unfold TokenStore.getProgramAccounts at hg
    rw [if_neg (by rcases hp with rfl | rfl <;> simp), hfin] at hg
    simp only [Run.ok_bind, if_neg hc, Run.bind_eq_ok] at hg
    obtain ⟨ans, ha, rs', ho, hg⟩ := hg
    cases hg
    exact ⟨rs', rfl⟩

/-- Reads at a commitment find the newest state on the chain of its slot. -/
theorem followed_found {ws : List (Nat × Written)} {evs : List Event} {ops : List TOp} {par : Nat → Nat} {pk : Pubkey}
    {s : TokenStore} {c : Commitment} (hacc : Accepted X pk ops) (hio : InOrder X par evs pk)
    (hi : Interleaved (archived ws) (streamed evs) ops) (hn : ops.length < 2 ^ 31) (hr : TokenStore.run X ops .empty = .ok s)
    (hcf : c ≠ .finalized) (hfo : Followed X par evs pk c) :
    (∀ a k, NewestTrue (streamed evs) par pk (tipOf (streamed evs) c) a k → lastFinal (streamed evs) < k →
      ∃ x, Taken X ops a x ∧ s.getAccount pk c = x.toSolana s.mints k 0) ∧
    ((∀ a k, NewestTrue (streamed evs) par pk (tipOf (streamed evs) c) a k → k ≤ lastFinal (streamed evs)) →
      s.getAccount pk c = s.getAccount pk .finalized) := by
  cases c with
  | finalized => exact absurd rfl hcf
  | confirmed =>
    obtain ⟨c1, c2⟩ := feed_confirmed hacc hio hi hn hr
    exact ⟨fun a k g1 g2 => c1 a k g1 g2 (hfo.links a k g1 g2), c2⟩
  | processed =>
    obtain ⟨c1, c2⟩ := feed_processed hacc hio hi hn hr (hfo.above rfl) (hfo.confirmed rfl)
    refine ⟨fun a k g1 g2 => c1 a k g1 g2 (fun i i1 i2 i3 => ?_), c2⟩
    have hkc : k ≤ confirmedOf (streamed evs) := by
      have e1 := ancestor_le hio.older i1
      have e2 := ancestor_le hio.older i2
      omega
    exact hfo.links a k (newest_between hio.older g1 (hfo.confirmed rfl) hkc) g2 i i1 i2 i3

/-- What is to be shown of a key as of the slot of a commitment is what a read at the commitment gives. -/
theorem followed_read {ws : List (Nat × Written)} {evs : List Event} {ops : List TOp} {par : Nat → Nat} {pk : Pubkey} {slot : Nat}
    {s : TokenStore} {d : Option (Pubkey × Bytes)} {c : Commitment} (hc : Consistent (tokenOwned (ws.map (·.2))))
    (hs : StreamRespects X ws evs) (hk : TokenKey ws evs pk) (hio : InOrder X par evs pk) (hi : Interleaved (archived ws) (streamed evs) ops)
    (hn : ops.length < 2 ^ 31) (hr : TokenStore.run X ops .empty = .ok s) (hl : LoadedFirst pk ops) (hcf : c ≠ .finalized)
    (hfo : Followed X par evs pk c) (hd : CurrentAt ws evs par pk (tipOf (streamed evs) c) slot d) :
    (d = none → s.getAccount pk c = .ok none) ∧
    ∀ owner bs, d = some (owner, bs) → ∃ r bs' sa sa', s.getAccount pk c = .ok (some r) ∧ r.pubkey = pk ∧
      r.slot = slot ∧ r.account.owner = owner ∧ HonestData X r.account.data bs' ∧
      AccountLayout bs sa ∧ AccountLayout bs' sa' ∧ SameToken sa sa' := by
  obtain ⟨c1, c2⟩ := followed_found (feed_accepted hk hi) hio hi hn hr hcf hfo
  exact feed_at hc hs hk hio hi hn hr (fun _ _ _ => hl) c1 c2 hd

end LAM.Props
