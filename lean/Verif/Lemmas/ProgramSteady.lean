import Verif.Lemmas.ProgramFeed
import Verif.Spec.ProgramSteady
/-!
# Keys of an archive and a stream that keep their kind
-/
namespace LAM.Token
open Spec Props ProcStore Sim
open TokenStore (TOp)

variable {X : Codecs} {ws : List (Nat × Written)} {evs : List Event} {ops : List TOp} {pk : Pubkey} {par : Nat → Nat}
  {L : Bytes → Prop}

/-- Live accounts with this data are classified. -/
def Classified (X : Codecs) (L : Bytes → Prop) : Prop :=
  ∀ T a p bs, TokenProgramOwned a p → HonestData X a.account.data bs → L bs → ∃ x T', classify X T a = .ok (some x, T')

/-- What is submitted for `pk`. -/
theorem steady_submitted (hc : Consistent (tokenOwned (ws.map (·.2)))) (hk : SteadyKey L ws evs pk)
    (hi : Interleaved (archived ws) (streamed evs) ops) {o : TOp} (ho : o ∈ ops) {a : AccountData} (ha : submittedBy o = some a)
    (hp : a.pubkey = pk) : ∃ p bs, TokenProgramOwned a p ∧ HonestData X a.account.data bs ∧ L bs := by
  rcases (interleaved_mem hi o).1 ho with ho | ho
  · obtain ⟨w, hw, rfl⟩ := archived_kind ho
    cases ha
    exact ⟨_, _, owned_of hc hw, honest_submitted X w, hk.archive w hw hp⟩
  · rcases streamed_kind ho with ⟨b, rfl, -⟩ | ⟨σ, info, c, rfl, -⟩
    · cases ha
      obtain ⟨h0, h1, bs, hb, hl⟩ := hk.stream a _ ho hp
      obtain ⟨p, hp⟩ := owned_iff h0 h1
      exact ⟨p, bs, hp, by rw [hb]; exact ⟨rfl, rfl⟩, hl⟩
    · cases ha

theorem steady_open (hc : Consistent (tokenOwned (ws.map (·.2)))) (hk : SteadyKey L ws evs pk)
    (hi : Interleaved (archived ws) (streamed evs) ops) : NeverClosed X pk ops := by
  intro o ho a ha hp T T' hcl
  obtain ⟨p, bs, hpo, -⟩ := steady_submitted (X := X) hc hk hi ho ha hp
  have := (C46_deleted_iff X T T' a _ hcl).1 (by rw [hp])
  exact owned_not_deleted hpo this

theorem steady_accepted (hx : Classified X L) (hc : Consistent (tokenOwned (ws.map (·.2)))) (hk : SteadyKey L ws evs pk)
    (hi : Interleaved (archived ws) (streamed evs) ops) : Accepted X pk ops := by
  intro pre a c post s e _ hp _
  obtain ⟨p, bs, hpo, hd, hl⟩ := steady_submitted (X := X) hc hk hi (o := .update a c) (by rw [e]; simp) rfl hp
  exact ⟨isToken_owned hpo, fun T => hx T a p bs hpo hd hl⟩

/-- The states submitted for `pk` are neither token accounts nor deletions. -/
theorem steady_seen (hx : ∀ T T' a p bs x, TokenProgramOwned a p → HonestData X a.account.data bs → L bs →
      classify X T a = .ok (some x, T') → ∀ t, x ≠ .token t)
    (hc : Consistent (tokenOwned (ws.map (·.2)))) (hk : SteadyKey L ws evs pk)
    (hi : Interleaved (archived ws) (streamed evs) ops) : SeenKey X false pk ops := by
  intro o ho a ha hp T x T' hcl _
  obtain ⟨p, bs, hpo, hd, hl⟩ := steady_submitted (X := X) hc hk hi ho ha hp
  refine ⟨hx T T' a p bs x hpo hd hl hcl, ?_⟩
  rintro q rfl
  have := (classify_some hcl).1
  simp only [ProgramAccount.pubkey] at this
  subst this
  exact steady_open hc hk hi o ho a ha hp T T' (by rw [hcl, hp])

/-- The account that is to be shown is stored as classified. -/
theorem steady_holds {s : TokenStore} {owner : Pubkey} {lamports : Nat} {bs : Bytes} (hx : Classified X L)
    (hx' : ∀ T T' a p bs x, TokenProgramOwned a p → HonestData X a.account.data bs → L bs →
      classify X T a = .ok (some x, T') → ∀ t, x ≠ .token t)
    (hc : Consistent (tokenOwned (ws.map (·.2)))) (hk : SteadyKey L ws evs pk) (hio : InOrder X par evs pk)
    (hi : Interleaved (archived ws) (streamed evs) ops) (hn : ops.length < 2 ^ 31) (hr : TokenStore.run X ops .empty = .ok s)
    (hl : LoadedFirst pk ops) (hd : Now ws evs par pk owner lamports bs) :
    ∃ a p x T T', a.pubkey = pk ∧ a.account.owner = owner ∧ a.account.lamports = lamports ∧ TokenProgramOwned a p ∧
      HonestData X a.account.data bs ∧ L bs ∧ classify X T a = .ok (some x, T') ∧ Holding s x := by
  have hf := feed_filter hi
  have hp : TrueParents par ops := parents_filter (by rw [hf]; exact hio.parents)
  have ht : OnTime ops := onTime_filter (by rw [hf]; exact hio.onTime)
  have hch : Chained X par pk ops := chained_filter (by rw [hf]; exact hio.chained)
  have hlf : lastFinal (streamed evs) = lastFinal ops := by rw [← hf, lastFinal_filter]
  have hnw : ∀ a k, NewestTrue (streamed evs) par pk (lastFinal (streamed evs)) a k ↔ NewestTrue ops par pk (lastFinal ops) a k := by
    intro a k; rw [hlf, ← hf]; exact newest_filter hio.older
  have hacc : Accepted X pk ops := steady_accepted hx hc hk hi
  have hsk : SeenKey X false pk ops := steady_seen hx' hc hk hi
  cases hd with
  | @stream a k bs hnew hb =>
    have hnew' := (hnw a k).1 hnew
    have hpos : 0 < lastFinal ops := by
      rcases Nat.eq_zero_or_pos (lastFinal ops) with e | e
      · rw [e] at hnew'; exact absurd hnew' (newest_zero hio.older ht)
      · exact e
    obtain ⟨x, ⟨pre, c, post, s0, s0', e1, -, -, -, hcl⟩, -, hh⟩ := stream_holds ops hn hio.older hp ht hch hl (w := false) (by simp) hsk hacc
      (.inl (steady_open hc hk hi)) hr hpos hnew'
    obtain ⟨c', hm, hak, -⟩ := newest_mem_ops hnew
    obtain ⟨p, bs', hpo, hd', hl'⟩ := steady_submitted (X := X) hc hk hi (o := .update a c) (by rw [e1]; simp) rfl hak
    have : bs' = bs := by rw [hb] at hd'; have := hd'.1; cases this; rfl
    subst this
    exact ⟨a, p, x, _, _, hak, rfl, rfl, hpo, hd', hl', hcl, hh⟩
  | @archive w hnone hlast hw =>
    subst hw
    have hwm := lastOf_mem hlast
    obtain ⟨pre, post, e, hpost⟩ := feed_last hi hlast
    have hlen : pre.length + 1 + post.length < 2 ^ 31 := by rw [e] at hn; simp at hn; omega
    have e' : ops = (pre ++ [.init w.submitted]) ++ post := by simp [e]
    have hr' := hr
    rw [e'] at hr'
    obtain ⟨s2, hr2, hr3⟩ := (storeRun_append _ _).1 hr'
    obtain ⟨s1, hr1, hst⟩ := run_snoc hr2
    obtain ⟨slots1, orig1, i1⟩ := reach_inv (by omega) hr1
    have huns := stream_unseen (w := false) (X := X) (par := par) (s0 := s2) (s := s) (pk := w.pubkey) (pre ++ [.init w.submitted]) post
      (by rw [← e']; exact hn) hio.older (by rw [← e']; exact hp) (by rw [← e']; exact ht) (by rw [← e']; exact hch)
      (by simp) (by rw [← e']; exact hacc) hr2 hr3
      (by rw [← e']; exact fun a k h => hnone a k ((hnw a k).2 h)) hpost
    obtain ⟨r, T, s3, slots3, orig3, a1, a2, a3, -, -, -, -, -, -, -, a11⟩ := Sim.init_step i1 (by omega) (owned_of hc hwm)
      (honest_submitted X w)
    have e3 : s3 = s2 := by
      have : s1.step X (.init w.submitted) = .ok s3 := a2
      rw [hst] at this; cases this; rfl
    subst e3
    obtain ⟨x, T', hcl⟩ := hx s1.table _ _ _ (owned_of hc hwm) (honest_submitted X w) (hk.archive w hwm rfl)
    rw [a1] at hcl
    simp only [Run.ok.injEq, Prod.mk.injEq] at hcl
    obtain ⟨rfl, rfl⟩ := hcl
    obtain ⟨b1, -, b3, b4, -⟩ := a11 _ rfl
    refine ⟨w.submitted, _, x, _, _, rfl, rfl, rfl, owned_of hc hwm, honest_submitted X w, hk.archive w hwm rfl, a1, ?_⟩
    refine holding_frame (s := s3) (by rw [b1]; exact huns)
      (hsk (.init w.submitted) (by rw [e]; simp) _ rfl rfl _ _ _ a1) ?_ (fun p h => absurd h (b3 p))
    exact holding_of_rec (s := { s1 with table := T }) (slots := slots1) a3.fin (by rw [b1]; exact b4) (fun p h => absurd h (b3 p))

/-- `pk` is never submitted as a multisig. -/
def NeverMultisig (X : Codecs) (pk : Pubkey) (ops : List TOp) : Prop :=
  ∀ o ∈ ops, ∀ a, submittedBy o = some a → a.pubkey = pk → ∀ T x T', classify X T a = .ok (some x, T') → ∀ m p, x ≠ .multisig m p

theorem apply_noMulti {r : Rec} {x : ProgramAccount} (hx : ∀ m p, x ≠ .multisig m p) : (r.apply x).multi = r.multi := by
  cases x with
  | multisig m p => exact absurd rfl (hx m p)
  | token t => rfl
  | mint m => rfl
  | deleted p => simp only [Rec.apply]; split <;> rfl

/-- A key that is never submitted as a multisig is not stored as one. -/
theorem stream_noMulti {s : TokenStore} (ops : List TOp) (hn : ops.length < 2 ^ 31)
    (hk : NeverMultisig X pk ops) (hr : TokenStore.run X ops .empty = .ok s) :
    s.multisigs.find pk = none ∧ ∀ k y, stateAt s.processed k pk = some y → ∀ m p, y.account ≠ .multisig m p := by
  induction ops using List.reverseRecOn generalizing s with
  | nil =>
    simp [TokenStore.run] at hr; subst hr
    exact ⟨rfl, fun k y h => by simp [stateAt, TokenStore.empty] at h⟩
  | append_singleton ops o ih =>
    obtain ⟨s1, h1, h2⟩ := run_snoc hr
    simp only [List.length_append, List.length_cons, List.length_nil] at hn
    obtain ⟨i1, i3⟩ := ih (by omega) (fun o ho => hk o (by simp [ho])) h1
    obtain ⟨slots, orig, inv⟩ := free_inv (pk := pk) (w := false) (by omega) (by simp) h1
    have hko := hk o (by simp)
    rcases finalizing o with ⟨σ, info, rfl⟩ | hf
    · obtain ⟨n, h3⟩ := step_slot h2
      obtain ⟨slots', orig', fin', g1, g2⟩ := finalized_own inv (by omega) h3
      have hproc : ∀ k y, stateAt s.processed k pk = some y → stateAt s1.processed k pk = some y := by
        intro k y hy
        obtain ⟨-, -, -, -, -, hdrop, -⟩ := finalized_spec inv (by omega) h3
        by_cases hd : k ≤ info.slot ∨ OnChain (noted s1 info s1.finalizedSlot) info.slot k
        · simp [stateAt, (hdrop k).1 hd] at hy
        · simpa [stateAt, (hdrop k).2 hd] using hy
      refine ⟨?_, fun k y hy => i3 k y (hproc k y hy)⟩
      by_cases hx : ∃ x k, NewestOn (noted s1 info s1.finalizedSlot) pk info.slot x k
      · obtain ⟨x, k, hx⟩ := hx
        have hst := newestOn_state hx
        rw [stateAt_noted] at hst
        have := look_multi (g1 x k hx).2
        rw [apply_noMulti (i3 k x hst)] at this
        simpa [recOf, i1] using this
      · rw [(g2 (fun x k h => hx ⟨x, k, h⟩)).1.multi]; exact i1
    · have hproc : ∀ k y, stateAt s.processed k pk = some y → ∀ m p, y.account ≠ .multisig m p := by
        intro k y hy
        cases o with
        | slot σ info c =>
          obtain ⟨n, h3⟩ := step_slot h2
          rw [slot_stateAt (fun e => hf σ info (by rw [e])) h3] at hy
          exact i3 k y hy
        | init a =>
          simp only [TokenStore.step, init_eq_update, Run.bind_eq_ok] at h2
          obtain ⟨⟨b, s3⟩, h3, h2⟩ := h2
          simp at h2; subst h2
          rw [update_final_processed h3] at hy
          exact i3 k y hy
        | update a c =>
          simp only [TokenStore.step, Run.bind_eq_ok] at h2
          obtain ⟨⟨b, s3⟩, h3, h2⟩ := h2
          simp at h2; subst h2
          rcases update_entered h3 with e | ⟨x, T', hcl, e⟩
          · rw [e] at hy; exact i3 k y hy
          · rw [e, stateAt_insertAccount] at hy
            split at hy
            · rename_i hm
              have hx := hko a rfl hm.2 _ x _ hcl
              split at hy
              · rename_i old hold
                split at hy
                · cases hy; exact hx
                · cases hy; exact i3 k _ hold
              · cases hy; exact hx
            · exact i3 k y hy
      refine ⟨?_, hproc⟩
      by_cases hown : ∃ a, AtOnce o ∧ submittedBy o = some a ∧ a.pubkey = pk
      · obtain ⟨a, ho1, ho2, rfl⟩ := hown
        have hu : ∃ b, s1.updateAccount X a .finalized = .ok (b, s) := by
          cases o with
          | slot σ info c => exact absurd ho1 id
          | init a' =>
            cases ho2
            simp only [TokenStore.step, init_eq_update, Run.bind_eq_ok] at h2
            obtain ⟨⟨b, s3⟩, h3, h2⟩ := h2
            simp at h2; subst h2
            exact ⟨b, h3⟩
          | update a' c =>
            cases ho2
            simp only [AtOnce] at ho1
            subst ho1
            simp only [TokenStore.step, Run.bind_eq_ok] at h2
            obtain ⟨⟨b, s3⟩, h3, h2⟩ := h2
            simp at h2; subst h2
            exact ⟨b, h3⟩
        obtain ⟨b, hu⟩ := hu
        rcases update_own inv (by omega) (fun _ _ _ => by simp [TwinFree]) hu with
          ⟨e1, -⟩ | ⟨x, T, slots', orig', hcl, hxk, fin', he⟩
        · rw [e1]; exact i1
        · have := congrArg Rec.multi he
          rw [apply_noMulti (hko a ho2 rfl _ _ _ hcl)] at this
          simpa [recOf, i1] using this
      · obtain ⟨f1, -⟩ := step_frame inv (by omega) (by simp) hf
          (fun a ho1 ho2 he => hown ⟨a, ho1, ho2, he⟩) h2
        rw [f1.multi]; exact i1

/-! ## Mints -/

theorem classified_mint : Classified X MintData := by
  rintro T a p bs ho hd ⟨sm, hl⟩
  obtain ⟨T', h⟩ := (C46_mint_iff X T a p bs ho hd (mintOf a p sm none)).2 ⟨rfl, rfl, sm, hl, by constructor <;> rfl⟩
  exact ⟨_, _, h⟩

/-- What a mint is classified as. -/
theorem mint_classified {T T' : MintTable} {a : AccountData} {p : Program} {bs : Bytes} {x : ProgramAccount} (ho : TokenProgramOwned a p)
    (hd : HonestData X a.account.data bs) (hl : MintData bs) (h : classify X T a = .ok (some x, T')) :
    ∃ m sm, x = .mint m ∧ m.program = p ∧ m.pubkey = a.pubkey ∧ MintLayout bs sm ∧ MintMatches sm a.account.lamports m := by
  obtain ⟨sm, hl⟩ := hl
  obtain ⟨T2, h2⟩ := (C46_mint_iff X T a p bs ho hd (mintOf a p sm none)).2 ⟨rfl, rfl, sm, hl, by constructor <;> rfl⟩
  rw [h] at h2
  cases h2
  exact ⟨_, sm, rfl, rfl, rfl, hl, by constructor <;> rfl⟩

theorem mint_noToken : ∀ T T' a p bs x, TokenProgramOwned a p → HonestData X a.account.data bs → MintData bs →
    classify X T a = .ok (some x, T') → ∀ t, x ≠ .token t := by
  rintro T T' a p bs x ho hd hl h t rfl
  obtain ⟨m, sm, e, -⟩ := mint_classified ho hd hl h
  cases e

/-- A mint is written with its fields. -/
theorem mintBytes_layout {m : MintAccount} {sm : Spl.Mint} {bs : Bytes} {n : Nat} (hl : MintLayout bs sm) (h : MintMatches sm n m) :
    MintLayout (mintBytes m) sm := by
  have hs : sm.supply < 2 ^ 64 := by rw [← hl.supply]; exact field_lt _ _ 8
  have hpack : mintBytes m = Spl.Mint.pack sm := by
    unfold mintBytes
    rw [h.plain, h.mintAuthority, h.supply, h.decimals, h.initialized, h.freeze]
    cases m.program <;> rfl
  rw [hpack]
  exact C45_pack_is_layout.2.1 _ hs

/-- The mint that is to be shown is read. -/
theorem mint_read {s : TokenStore} {owner : Pubkey} {lamports : Nat} {bs : Bytes} (hc : Consistent (tokenOwned (ws.map (·.2))))
    (hk : SteadyKey MintData ws evs pk) (hio : InOrder X par evs pk) (hi : Interleaved (archived ws) (streamed evs) ops)
    (hn : ops.length < 2 ^ 31) (hr : TokenStore.run X ops .empty = .ok s) (hl : LoadedFirst pk ops)
    (hd : Now ws evs par pk owner lamports bs) :
    ∃ m i sm p, s.table.index.find pk = some i ∧ s.mints.find i = some m ∧ m.pubkey = pk ∧ m.program = p ∧ owner = p.id ∧
      s.getAccount pk .finalized = .ok (some (mintToSolana m (lastFinal (streamed evs)) 0)) ∧ MintLayout bs sm ∧
      MintMatches sm lamports m := by
  obtain ⟨a, p, x, T, T', h1, h2, h3, h4, h5, h6, h7, h8⟩ := steady_holds classified_mint mint_noToken hc hk hio hi hn hr hl hd
  obtain ⟨m, sm, rfl, m1, m2, m3, m4⟩ := mint_classified h4 h5 h6 h7
  obtain ⟨i, g1, g2⟩ := h8
  have hnm : NeverMultisig X pk ops := by
    intro o ho b hb hp T x T' hcl m q e
    obtain ⟨p, bs, k1, k2, k3⟩ := steady_submitted (X := X) hc hk hi ho hb hp
    obtain ⟨m, sm, e', -⟩ := mint_classified k1 k2 k3 hcl
    rw [e] at e'; cases e'
  have hmu := (stream_noMulti ops hn hnm hr).1
  obtain ⟨slots, orig, inv⟩ := reach_inv hn hr
  have hf := feed_filter hi
  have hp : TrueParents par ops := parents_filter (by rw [hf]; exact hio.parents)
  have hlf : lastFinal (streamed evs) = lastFinal ops := by rw [← hf, lastFinal_filter]
  have hfs := (run_slots ops hn hp hr).1
  rw [m2, h1] at g1
  refine ⟨m, i, sm, p, g1, g2, by rw [m2, h1], m1, by rw [← h2, h4.2]; cases p <;> rfl, ?_, m3, by rw [← h3]; exact m4⟩
  have : s.getAccount pk .finalized = s.getFinalized pk := rfl
  rw [this, (getFinalized_eq inv.fin pk).2.1 (by simpa [recOf] using hmu) m (by simp [recOf, g1, g2]), hfs, hlf]

/-! ## Multisigs -/

theorem multisig_classified {T T' : MintTable} {a : AccountData} {p : Program} {bs : Bytes} (ho : TokenProgramOwned a p)
    (hd : HonestData X a.account.data bs) (hl : MultisigData bs) {x : ProgramAccount} (h : classify X T a = .ok (some x, T')) :
    ∃ m sm, x = .multisig m a.pubkey ∧ m.program = p ∧ MultisigLayout bs sm ∧ MultisigMatches sm a.account.lamports m := by
  obtain ⟨sm, hl⟩ := hl
  obtain ⟨T2, h2⟩ := (C46_multisig_iff X T a p bs ho hd (multisigOf a p sm) a.pubkey).2
    ⟨rfl, rfl, rfl, sm, hl, by constructor <;> rfl⟩
  rw [h] at h2
  cases h2
  exact ⟨_, sm, rfl, rfl, hl, by constructor <;> rfl⟩

theorem multisig_noToken : ∀ T T' a p bs x, TokenProgramOwned a p → HonestData X a.account.data bs → MultisigData bs →
    classify X T a = .ok (some x, T') → ∀ t, x ≠ .token t := by
  rintro T T' a p bs x ho hd hl h t rfl
  obtain ⟨m, sm, e, -⟩ := multisig_classified ho hd hl h
  cases e

theorem classified_multisig : Classified X MultisigData := by
  rintro T a p bs ho hd ⟨sm, hl⟩
  obtain ⟨T', h⟩ := (C46_multisig_iff X T a p bs ho hd (multisigOf a p sm) a.pubkey).2 ⟨rfl, rfl, rfl, sm, hl, by constructor <;> rfl⟩
  exact ⟨_, _, h⟩

/-- A multisig is written with its fields. -/
theorem multisig_shown {mints : AMap Nat MintAccount} {m : MultiSig} {p : Program} {sm : Spl.Multisig} {bs : Bytes} {n : Nat}
    (pk : Pubkey) (slot : Nat) (h1 : m.program = p) (h2 : MultisigLayout bs sm) (h3 : MultisigMatches sm n m) :
    ∃ r bs' sm', (ProgramAccount.multisig m pk).toSolana mints slot 0 = .ok (some r) ∧ r.pubkey = pk ∧ r.slot = slot ∧
      r.account.owner = p.id ∧ r.account.lamports = n ∧ HonestData X r.account.data bs' ∧ MultisigLayout bs' sm' ∧ SameMultisig sm sm' := by
  have hlen : m.signers.length ≤ 11 := by
    rw [h3.signers, ← h2.count]
    exact List.length_filter_le _ _
  have hs : (ProgramAccount.multisig m pk).toSolana mints slot 0 = .ok (some ⟨pk, solanaAccount m.lamports (Spl.Multisig.pack ⟨m.m, m.n,
      m.isInitialized, m.signers ++ List.replicate (11 - m.signers.length) Pubkey.default⟩) m.program, slot, 0⟩) := by
    simp only [ProgramAccount.toSolana, multisigToSolana_ok hlen, Run.ok_bind]; rfl
  refine ⟨_, _, ⟨m.m, m.n, m.isInitialized, m.signers ++ List.replicate (11 - m.signers.length) Pubkey.default⟩, hs, rfl, rfl,
    by simp only [solanaAccount, h1], by simp [solanaAccount, h3.lamports], ⟨rfl, rfl⟩, C45_pack_is_layout.2.2 _ (by simp; omega), ?_⟩
  · refine ⟨h3.required.symm, h3.total.symm, h3.initialized.symm, ?_⟩
    have := realSigners_pad m.signers (by rw [h3.signers]; intro k hk; simpa using (List.mem_filter.1 hk).2) (11 - m.signers.length)
    unfold realSigners at this
    rw [this, h3.signers]

/-- The multisig that is to be shown is read. -/
theorem multisig_read {s : TokenStore} {owner : Pubkey} {lamports : Nat} {bs : Bytes} (hc : Consistent (tokenOwned (ws.map (·.2))))
    (hk : SteadyKey MultisigData ws evs pk) (hio : InOrder X par evs pk) (hi : Interleaved (archived ws) (streamed evs) ops)
    (hn : ops.length < 2 ^ 31) (hr : TokenStore.run X ops .empty = .ok s) (hl : LoadedFirst pk ops)
    (hd : Now ws evs par pk owner lamports bs) :
    ∃ r bs' sm sm', s.getAccount pk .finalized = .ok (some r) ∧ r.pubkey = pk ∧ r.slot = lastFinal (streamed evs) ∧
      r.account.owner = owner ∧ r.account.lamports = lamports ∧ HonestData X r.account.data bs' ∧ MultisigLayout bs sm ∧
      MultisigLayout bs' sm' ∧ SameMultisig sm sm' ∧ s.multisigs.find pk ≠ none := by
  obtain ⟨a, p, x, T, T', h1, h2, h3, h4, h5, h6, h7, h8⟩ := steady_holds classified_multisig multisig_noToken hc hk hio hi hn hr hl hd
  obtain ⟨m, sm, rfl, m1, m2, m3⟩ := multisig_classified h4 h5 h6 h7
  obtain ⟨slots, orig, inv⟩ := reach_inv hn hr
  have hf := feed_filter hi
  have hp : TrueParents par ops := parents_filter (by rw [hf]; exact hio.parents)
  have hlf : lastFinal (streamed evs) = lastFinal ops := by rw [← hf, lastFinal_filter]
  have hfs := (run_slots ops hn hp hr).1
  have h8 : s.multisigs.find a.pubkey = some m := h8
  rw [h1] at h8
  obtain ⟨r, g1, g2⟩ := (getFinalized_eq inv.fin pk).1 m (by simpa [recOf] using h8)
  have hlen : m.signers.length ≤ 11 := (inv.fin.multis pk m h8).1
  rw [multisigToSolana_ok hlen] at g2
  cases g2
  refine ⟨_, _, sm, ⟨m.m, m.n, m.isInitialized, m.signers ++ List.replicate (11 - m.signers.length) Pubkey.default⟩, g1, rfl,
    by simp [hfs, hlf], ?_, by simp [solanaAccount, m3.lamports, h3], ⟨rfl, rfl⟩, m2, C45_pack_is_layout.2.2 _ (by simp; omega), ?_, by rw [h8]; simp⟩
  · simp only [solanaAccount, m1]
    rw [← h2, h4.2]
    cases p <;> rfl
  · refine ⟨m3.required.symm, m3.total.symm, m3.initialized.symm, ?_⟩
    have := realSigners_pad m.signers (by rw [m3.signers]; intro k hk; simpa using (List.mem_filter.1 hk).2) (11 - m.signers.length)
    unfold realSigners at this
    rw [this, m3.signers]

end LAM.Token
