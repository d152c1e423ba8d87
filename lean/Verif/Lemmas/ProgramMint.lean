import Verif.Spec.ProgramMint
import Verif.Lemmas.ProgramQuery
/-!
# Lemmas for C113
-/
namespace LAM.Props
open Spec Token Sim ProcStore
open TokenStore (TOp)

variable {X : Codecs} {ws : List (Nat × Written)} {evs : List Event}

/-- A token account listed for a mint is the one a finalized read shows, unless a key with the same first four bytes was closed. -/
theorem listed_read_mint {s : TokenStore} {ops : List TOp} {σ : Orders} {program mint pk : Pubkey} {l : List AccountFilterType}
    {rs : List AccountData} {r : AccountData} (hn : ops.length < 2 ^ 31) (hw : NoTwinClosed X pk ops) (hk : OnlyToken X pk ops)
    (hr : TokenStore.run X ops .empty = .ok s) (hq : AsksMint program l mint) (hno : ∀ owner, ¬ AsksOwner program l owner)
    (hg : s.getProgramAccounts X σ program (some l) .finalized = .ok (.ok rs)) (hm : r ∈ rs) (hp : r.pubkey = pk) :
    s.getAccount pk .finalized = .ok (some r) := by
  obtain ⟨slots, orig, inv⟩ := stream_inv hn hw hr
  obtain ⟨j1, j2, -⟩ := stream_only ops hn hk hr
  obtain ⟨m, is, i, t, -, -, -, h3, h5⟩ := (gpa_mint inv.fin (mint_of hq hno) (gpa_finalized hg).2 r).1 hm
  obtain ⟨h6, m, -, h7⟩ := tokenToSolana_some h5
  have hk' : t.pubkey = pk := by rw [← hp, h7]
  have hst := inv.fin.linked pk (fun p hp hpp hd => hd p rfl hp hpp) i t h3 hk' h6
  have hv := (view_eq_some inv.fin.holds).2 ⟨hk', i, hst⟩
  have := ((getFinalized_eq inv.fin pk).2.2.2.1 j1 (by simp [recOf, j2]) t hv).1
  show s.getFinalized pk = _
  rw [this, h5]

theorem listed_once_mint {s : TokenStore} {ops : List TOp} {σ : Orders} {program mint pk : Pubkey} {l : List AccountFilterType}
    {rs : List AccountData} (hn : ops.length < 2 ^ 31) (hw : NoTwinClosed X pk ops)
    (hr : TokenStore.run X ops .empty = .ok s) (hq : AsksMint program l mint) (hno : ∀ owner, ¬ AsksOwner program l owner)
    (hg : s.getProgramAccounts X σ program (some l) .finalized = .ok (.ok rs)) : rs.countP (fun r => decide (r.pubkey = pk)) ≤ 1 := by
  obtain ⟨slots, orig, inv⟩ := stream_inv hn hw hr
  have hg := (gpa_finalized hg).2
  unfold TokenStore.gpaFinalized at hg
  simp only [mint_of hq hno] at hg
  split at hg
  · split at hg
    · rename_i is _
      rw [getByIndex_eq inv.fin.holds] at hg
      simp only [Run.ok_bind, Run.bind_eq_ok] at hg
      obtain ⟨rs', h1, hg⟩ := hg
      cases hg
      exact Nat.le_trans (tokensToSolana_count h1) (slots_count inv.fin (fun p hp hpp hd => hd p rfl hp hpp) (σ.set_nodup is))
    · cases hg; simp
  · cases hg; simp

theorem mint_fixed {pk mk : Pubkey} {ops : List TOp}
    (hc : Consistent (tokenOwned (ws.map (·.2)))) (hs : StreamRespects X ws evs)
    (ho : MintKept ws evs pk mk) (hi : Interleaved (archived ws) (streamed evs) ops) : MintFixed X pk mk ops := by
  intro op hop a ha hpk
  have ha' : submittedBy op = some a := by cases op <;> exact ha
  obtain ⟨⟨bs, hd, -⟩, -⟩ := feed_respects hc hs hi hop ha'
  refine ⟨bs, hd, fun sa hsa => ?_⟩
  rcases (interleaved_mem hi op).1 hop with hop | hop
  · obtain ⟨w, hw, rfl⟩ := archived_kind hop
    cases ha
    have : bs = w.data := by
      have := (honest_submitted X w).1
      rw [hd.1] at this
      cases this; rfl
    subst this
    exact ho.archive w hw hpk sa hsa
  · rcases streamed_kind hop with ⟨b, rfl, bs', hb⟩ | ⟨σ, info, c, rfl, -⟩
    · cases ha
      have : bs' = bs := by have := hd.1; rw [hb] at this; cases this; rfl
      subst this
      exact ho.stream _ _ hop hpk _ sa hb hsa
    · cases ha

theorem mint_open {mk : Pubkey} {ops : List TOp} (hc : Consistent (tokenOwned (ws.map (·.2)))) (hs : StreamRespects X ws evs)
    (hm : ArchiveMint ws mk) (hi : Interleaved (archived ws) (streamed evs) ops) : NotClosed mk ops := by
  intro op hop a ha hpk
  have ha' : submittedBy op = some a := by cases op <;> exact ha
  exact closed_not_mint (feed_respects hc hs hi hop ha') (by rw [hpk]; exact hm)

end LAM.Props
