import Verif.Lemmas.ProgramStore
/-!
# An archive and a stream that fit together
-/
namespace LAM.Token
open Spec Props ProcStore Sim
open TokenStore (TOp)

variable {X : Codecs} {ws : List (Nat × Written)} {evs : List Event} {ops : List TOp} {pk : Pubkey} {par : Nat → Nat}

theorem streamed_kind {o : TOp} (h : o ∈ streamed evs) : (∃ a, o = .update a .processed ∧ ∃ bs, a.account.data = .uncompressed bs) ∨
    ∃ σ info c, o = .slot σ info c ∧ (c = .confirmed ∨ c = .finalized) := by
  simp only [streamed, List.mem_filterMap] at h
  obtain ⟨e, -, h⟩ := h
  cases e with
  | message σ m =>
    cases m with
    | account pubkey lamports data compression owner executable rentEpoch slot writeVersion =>
      simp only [reported, Option.some.injEq] at h; subst h; exact .inl ⟨_, rfl, _, rfl⟩
    | slot slot parent level =>
      cases level <;> simp only [reported, Option.some.injEq, reduceCtorEq] at h <;> subst h
      · exact .inr ⟨_, _, _, rfl, .inl rfl⟩
      · exact .inr ⟨_, _, _, rfl, .inr rfl⟩
    | other => simp [reported] at h
  | load => simp at h
  | hangUp => simp at h

theorem archived_kind {o : TOp} (h : o ∈ archived ws) : ∃ w ∈ tokenOwned (ws.map (·.2)), o = .init w.submitted := by
  simp only [archived, List.mem_map] at h
  obtain ⟨w, hw, rfl⟩ := h
  exact ⟨w, hw, rfl⟩

theorem feed_filter (hi : Interleaved (archived ws) (streamed evs) ops) : ops.filter ofStream = streamed evs :=
  (interleaved_filter hi (by
    intro o ho; obtain ⟨w, -, rfl⟩ := archived_kind ho; rfl) (by
    intro o ho; rcases streamed_kind ho with ⟨a, rfl, -⟩ | ⟨σ, info, c, rfl, -⟩ <;> rfl)).1

theorem owned_of {w : Written} (hc : Consistent (tokenOwned (ws.map (·.2)))) (hw : w ∈ tokenOwned (ws.map (·.2))) :
    TokenProgramOwned w.submitted .tokenProgram :=
  owned_submitted (by simpa [tokenOwned] using (List.mem_filter.1 hw).2) (hc.live w hw)

/-- Every account that is submitted respects the mints of the archive. -/
theorem feed_respects (hc : Consistent (tokenOwned (ws.map (·.2)))) (hs : StreamRespects X ws evs)
    (hi : Interleaved (archived ws) (streamed evs) ops) {o : TOp} (ho : o ∈ ops) {a : AccountData} (ha : submittedBy o = some a) :
    Respects X (ArchiveMint ws) (fun _ _ _ => True) a := by
  rcases (interleaved_mem hi o).1 ho with ho | ho
  · obtain ⟨w, hw, rfl⟩ := archived_kind ho
    cases ha
    refine ⟨⟨w.data, honest_submitted X w, fun sa hsa => ⟨hc.mints w hw sa hsa, trivial⟩⟩, fun _ => ?_⟩
    have h := owned_of hc hw
    exact ⟨h.1, .inl h.2⟩
  · rcases streamed_kind ho with ⟨b, rfl, -⟩ | ⟨σ, info, c, rfl, -⟩
    · cases ha; exact hs _ _ ho
    · cases ha

theorem closed_not_mint {M : Pubkey → Prop} {P : Pubkey → Pubkey → Pubkey → Prop} {a : AccountData} (h : Respects X M P a)
    (hm : M a.pubkey) : ¬ Closes a := by
  obtain ⟨h1, h2⟩ := h.kept hm
  rintro (h | h)
  · exact h1 h
  · rcases h2 with h2 | h2
    · exact h.1 h2
    · exact h.2 h2

theorem not_mint (hk : TokenKey ws evs pk) : ¬ ArchiveMint ws pk := by
  rintro ⟨w, hw, hp, sm, hsm⟩
  obtain ⟨sa, hsa⟩ := hk.archive w hw hp
  have := hsm.length
  have := hsa.length
  omega

theorem owned_iff {a : AccountData} (h0 : a.account.lamports ≠ 0)
    (h : a.account.owner = Spl.tokenId ∨ a.account.owner = Spl.token2022Id) : ∃ p, TokenProgramOwned a p := by
  rcases h with h | h
  · exact ⟨.tokenProgram, h0, h⟩
  · exact ⟨.token2022Program, h0, h⟩

theorem classify_layout (T : MintTable) {a : AccountData} {p : Program} {bs : Bytes} {sa : Spl.Account} (ho : TokenProgramOwned a p)
    (hd : HonestData X a.account.data bs) (hl : AccountLayout bs sa) : ∃ t T', classify X T a = .ok (some (.token t), T') :=
  ⟨_, _, (C46_token_iff X T a p bs ho hd ⟨p, false, a.pubkey, sa.owner, (T.getOrCreate sa.mint).1, sa.amount,
      sa.state, sa.delegate.map (fun k => (k, sa.delegatedAmount)), sa.isNative, sa.closeAuthority, none⟩
      (T.getOrCreate sa.mint).2).2 ⟨rfl, rfl, sa, hl, by constructor <;> simp_all, rfl⟩⟩

/-- Classification gives an index only to the mint that a token account names. -/
theorem classify_index {T T' : MintTable} {a : AccountData} {bs : Bytes} {x : Option ProgramAccount}
    (hd : HonestData X a.account.data bs) (h : classify X T a = .ok (x, T')) :
    T' = T ∨ ∃ sa, AccountLayout bs sa ∧ T' = (T.getOrCreate sa.mint).2 := by
  cases x with
  | none => exact .inl (classify_none h)
  | some x =>
    rcases (classify_some h).2.1 with ⟨e, -⟩ | ⟨t, mint, rfl, -⟩
    · exact .inl e
    · by_cases hz : a.account.lamports = 0 ∨ (a.account.owner ≠ Spl.tokenId ∧ a.account.owner ≠ Spl.token2022Id)
      · rw [classify_deleted X T hz] at h; simp at h
      · simp only [not_or, not_and_or, ne_eq, not_not] at hz
        obtain ⟨p, hp⟩ := owned_iff hz.1 hz.2
        obtain ⟨-, -, sa, hl, -, e⟩ := (C46_token_iff X T a p bs hp hd t T').1 h
        exact .inr ⟨sa, hl, e⟩

theorem feed_accepted (hk : TokenKey ws evs pk) (hi : Interleaved (archived ws) (streamed evs) ops) : Accepted X pk ops := by
  intro pre a c post s e _ hp _
  have hm : TOp.update a c ∈ ops := by rw [e]; simp
  rcases (interleaved_mem hi _).1 hm with ho | ho
  · obtain ⟨w, -, h⟩ := archived_kind ho; simp at h
  · obtain ⟨h1, h2⟩ := hk.stream a c ho hp
    refine ⟨by unfold TokenStore.isTokenAccount; rw [if_pos (.inr (.inr h1))], fun T => ?_⟩
    by_cases h0 : a.account.lamports = 0
    · exact ⟨_, _, classify_deleted X T (.inl h0)⟩
    · rcases h2 with h2 | ⟨bs, sa, hb, hl⟩
      · exact absurd h2 h0
      · obtain ⟨p, hp⟩ := owned_iff h0 h1
        obtain ⟨t, T', h⟩ := classify_layout (X := X) T hp (bs := bs) (by rw [hb]; exact ⟨rfl, rfl⟩) hl
        exact ⟨_, _, h⟩

theorem feed_only (hc : Consistent (tokenOwned (ws.map (·.2)))) (hs : StreamRespects X ws evs) (hk : TokenKey ws evs pk)
    (hi : Interleaved (archived ws) (streamed evs) ops) : OnlyToken X pk ops := by
  intro o ho a ha T x T' hcl
  obtain ⟨⟨bs, hd, hm⟩, -⟩ := feed_respects hc hs hi ho ha
  constructor
  · intro hp y hy
    subst hy
    rcases (interleaved_mem hi o).1 ho with ho | ho
    · obtain ⟨w, hw, rfl⟩ := archived_kind ho
      cases ha
      obtain ⟨sa, hsa⟩ := hk.archive w hw hp
      obtain ⟨t, T2, h⟩ := classify_layout (X := X) T (owned_of hc hw) (honest_submitted X w) hsa
      rw [hcl] at h; cases h; exact .inl ⟨t, rfl⟩
    · rcases streamed_kind ho with ⟨b, rfl, -⟩ | ⟨σ, info, c, rfl, -⟩
      · cases ha
        obtain ⟨h1, h2⟩ := hk.stream a _ ho hp
        by_cases h0 : a.account.lamports = 0
        · rw [classify_deleted X T (.inl h0)] at hcl; cases hcl; rw [hp]; exact .inr rfl
        · rcases h2 with h2 | ⟨bs, sa, hb, hl⟩
          · exact absurd h2 h0
          · obtain ⟨p, hpo⟩ := owned_iff h0 h1
            obtain ⟨t, T2, h⟩ := classify_layout (X := X) T hpo (bs := bs) (by rw [hb]; exact ⟨rfl, rfl⟩) hl
            rw [hcl] at h; cases h; exact .inl ⟨t, rfl⟩
      · cases ha
  · intro hT
    rcases classify_index hd hcl with rfl | ⟨sa, hl, rfl⟩
    · exact hT
    · rw [getOrCreate_other T (m := sa.mint) (pk := pk)]
      · exact hT
      · rintro rfl; exact not_mint hk (hm sa hl).1

theorem feed_noTwin (hc : Consistent (tokenOwned (ws.map (·.2)))) (hk : TokenKey ws evs pk)
    (hi : Interleaved (archived ws) (streamed evs) ops) : NoTwinClosed X pk ops := by
  intro o ho a ha hne he T T' hcl
  have hz := (C46_deleted_iff X T T' a _ hcl).1 rfl
  rcases (interleaved_mem hi o).1 ho with ho | ho
  · obtain ⟨w, hw, rfl⟩ := archived_kind ho
    cases ha
    exact owned_not_deleted (owned_of hc hw) hz
  · rcases streamed_kind ho with ⟨b, rfl, -⟩ | ⟨σ, info, c, rfl, -⟩
    · cases ha
      obtain ⟨h1, h2⟩ := hk.twins a _ ho hne he
      obtain ⟨p, hp⟩ := owned_iff h1 h2
      exact owned_not_deleted hp hz
    · cases ha

/-- Keys that are not in the archive are not stored at once. -/
theorem feed_absent (hi : Interleaved (archived ws) (streamed evs) ops) (h : ∀ w ∈ tokenOwned (ws.map (·.2)), w.pubkey ≠ pk) :
    ∀ o ∈ ops, ∀ a, AtOnce o → submittedBy o = some a → a.pubkey ≠ pk := by
  intro o ho a h1 h2
  rcases (interleaved_mem hi o).1 ho with ho | ho
  · obtain ⟨w, hw, rfl⟩ := archived_kind ho
    cases h2
    exact h w hw
  · rcases streamed_kind ho with ⟨b, rfl, -⟩ | ⟨σ, info, c, rfl, -⟩
    · simp [AtOnce] at h1
    · cases h2

/-- A mint of `M` that was loaded is known at the end. -/
theorem mint_known {M : Pubkey → Prop} {P : Pubkey → Pubkey → Pubkey → Prop} (hresp : ∀ o ∈ ops, ∀ a, submittedBy o = some a → Respects X M P a)
    (hn : ops.length < 2 ^ 31) {s : TokenStore} (hr : TokenStore.run X ops .empty = .ok s) {a : AccountData} {bs : Bytes} {sm : Spl.Mint}
    (hm : M a.pubkey) (hmem : TOp.init a ∈ ops) (ho : TokenProgramOwned a .tokenProgram) (hd : HonestData X a.account.data bs)
    (hsm : MintLayout bs sm) : KnownMint s a.pubkey := by
  obtain ⟨pre, post, e⟩ := List.append_of_mem hmem
  have hlen : pre.length + 1 + post.length < 2 ^ 31 := by rw [e] at hn; simp at hn; omega
  have hq : ∀ o ∈ ops, ∀ b, o.account = some b → ∀ T x T', classify X T b = .ok (some x, T') → Deletes (fun p => p ≠ a.pubkey) x := by
    rintro o ho b hb T x T' hcl p rfl rfl
    rw [account_eq] at hb
    have hk := (classify_some hcl).1
    simp only [ProgramAccount.pubkey] at hk
    have hz := (C46_deleted_iff X T T' b _ hcl).1 (by rw [hk])
    exact closed_not_mint (hresp o ho b hb) (by rw [← hk]; exact hm) hz
  have e' : ops = (pre ++ [.init a]) ++ post := by simp [e]
  rw [e'] at hr
  obtain ⟨s2, hr2, hr⟩ := (storeRun_append _ _).1 hr
  obtain ⟨s1, hr1, hst⟩ := run_snoc hr2
  obtain ⟨slots1, orig1, i1⟩ := reach_inv (by omega) hr1
  have hk := init_known i1 (by omega) ho hd hsm hst
  obtain ⟨slots2, orig2, i2⟩ := run_inv (X := X) (pre ++ [.init a]) (inv_empty (Deletes (fun p => p ≠ a.pubkey)))
    (by simp; omega) (fun o ho a ha T => hq o (by rw [e']; exact List.mem_append_left _ ho) a ha T) hr2
  exact known_run post i2 (by simp; omega) (fun o ho => hq o (by rw [e']; exact List.mem_append_right _ ho)) hk hr

/-- The mints of the archive are known at the end. -/
theorem feed_known (hc : Consistent (tokenOwned (ws.map (·.2)))) (hs : StreamRespects X ws evs)
    (hi : Interleaved (archived ws) (streamed evs) ops) (hn : ops.length < 2 ^ 31) {s : TokenStore}
    (hr : TokenStore.run X ops .empty = .ok s) {mint : Pubkey} (hm : ArchiveMint ws mint) : KnownMint s mint := by
  have hm' := hm
  obtain ⟨w, hw, rfl, sm, hsm⟩ := hm
  exact mint_known (fun o ho a ha => feed_respects hc hs hi ho ha) hn hr (a := w.submitted) hm'
    ((interleaved_mem hi _).2 (.inl (by simp only [archived, List.mem_map]; exact ⟨w, hw, rfl⟩)))
    (owned_of hc hw) (honest_submitted X w) hsm

/-- The last version of a key in the archive, and that no other is loaded after it. -/
theorem feed_last {w : Written} (hi : Interleaved (archived ws) (streamed evs) ops) (hlast : LastOf (tokenOwned (ws.map (·.2))) w) :
    ∃ pre post, ops = pre ++ TOp.init w.submitted :: post ∧
      ∀ o ∈ post, ∀ a, AtOnce o → submittedBy o = some a → a.pubkey ≠ w.pubkey := by
  obtain ⟨l, l', el, hl'⟩ := hlast
  have hfa : ops.filter (fun x => !ofStream x) = archived ws := (interleaved_filter hi (by
    intro o ho; obtain ⟨w, -, rfl⟩ := archived_kind ho; rfl) (by
    intro o ho; rcases streamed_kind ho with ⟨a, rfl, -⟩ | ⟨σ, info, c, rfl, -⟩ <;> rfl)).2
  have ea : archived ws = l.map (fun w => TOp.init w.submitted) ++ TOp.init w.submitted :: l'.map (fun w => TOp.init w.submitted) := by
    simp [archived, el]
  rw [ea] at hfa
  obtain ⟨l1, l2, rfl, -, e2⟩ := List.filter_eq_append_iff.1 hfa
  obtain ⟨m1, m2, rfl, -, -, e3⟩ := List.filter_eq_cons_iff.1 e2
  refine ⟨l1 ++ m1, m2, by simp, ?_⟩
  intro o ho a h1 h2
  have hin : ofStream o = false → o ∈ l'.map (fun w => TOp.init w.submitted) := by
    intro hf; rw [← e3]; simp [ho, hf]
  cases o with
  | slot => cases h2
  | update b c =>
    have : TOp.update b c ∈ archived ws ∨ TOp.update b c ∈ streamed evs := (interleaved_mem hi _).1 (by simp [ho])
    rcases this with h | h
    · obtain ⟨w, -, h⟩ := archived_kind h; simp at h
    · rcases streamed_kind h with ⟨b', e, -⟩ | ⟨σ, info, c, e, -⟩
      · cases e; simp [AtOnce] at h1
      · cases e
  | init b =>
    cases h2
    obtain ⟨w', hw', e⟩ := List.mem_map.1 (hin rfl)
    cases e
    exact hl' w' hw'

/-- What is to be shown is stored: by the stream, if the archive did not overwrite it, or by the archive. -/
theorem feed_read {s : TokenStore} {d : Option (Pubkey × Bytes)} (hc : Consistent (tokenOwned (ws.map (·.2)))) (hs : StreamRespects X ws evs)
    (hk : TokenKey ws evs pk) (hio : InOrder X par evs pk) (hi : Interleaved (archived ws) (streamed evs) ops)
    (hn : ops.length < 2 ^ 31) (hr : TokenStore.run X ops .empty = .ok s)
    (hl : (∃ a k, NewestTrue (streamed evs) par pk (lastFinal (streamed evs)) a k) →
      (∃ w ∈ tokenOwned (ws.map (·.2)), w.pubkey = pk) → LoadedFirst pk ops)
    (hd : Current ws evs par pk d) :
    (d = none → s.getAccount pk .finalized = .ok none) ∧
    ∀ owner bs, d = some (owner, bs) → ∃ r bs' sa sa', s.getAccount pk .finalized = .ok (some r) ∧ r.pubkey = pk ∧
      r.slot = lastFinal (streamed evs) ∧ r.account.owner = owner ∧ HonestData X r.account.data bs' ∧
      AccountLayout bs sa ∧ AccountLayout bs' sa' ∧ SameToken sa sa' := by
  have hf := feed_filter hi
  have hp : TrueParents par ops := parents_filter (by rw [hf]; exact hio.parents)
  have ht : OnTime ops := onTime_filter (by rw [hf]; exact hio.onTime)
  have hch : Chained X par pk ops := chained_filter (by rw [hf]; exact hio.chained)
  have hlf : lastFinal (streamed evs) = lastFinal ops := by rw [← hf, lastFinal_filter]
  have hnw : ∀ a k, NewestTrue (streamed evs) par pk (lastFinal (streamed evs)) a k ↔ NewestTrue ops par pk (lastFinal ops) a k := by
    intro a k; rw [hlf, ← hf]; exact newest_filter hio.older
  have hacc : Accepted X pk ops := feed_accepted hk hi
  have honly : OnlyToken X pk ops := feed_only hc hs hk hi
  have htw : NoTwinClosed X pk ops := feed_noTwin hc hk hi
  have hopen : ∀ mint, ArchiveMint ws mint → ∀ o ∈ ops, ∀ b, submittedBy o = some b → b.pubkey = mint → ¬ Closes b := by
    rintro mint hm o ho b hb rfl
    exact closed_not_mint (feed_respects hc hs hi ho hb) hm
  obtain ⟨j1, j2, -⟩ := stream_only ops hn honly hr
  obtain ⟨slots, orig, inv⟩ := reach_inv hn hr
  have hg : s.getAccount pk .finalized = s.getFinalized pk := rfl
  have hfs := (run_slots ops hn hp hr).1
  have hload : (∃ a k, NewestTrue (streamed evs) par pk (lastFinal (streamed evs)) a k) → LoadedFirst pk ops := by
    intro hnew
    by_cases hin : ∃ w ∈ tokenOwned (ws.map (·.2)), w.pubkey = pk
    · exact hl hnew hin
    · intro pre o post a e h1 h2 h3
      exact absurd h3 (feed_absent hi (fun w hw he => hin ⟨w, hw, he⟩) o (by rw [e]; simp) a h1 h2)
  have hpos : (∃ a k, NewestTrue ops par pk (lastFinal ops) a k) → 0 < lastFinal ops := by
    rintro ⟨a, k, h⟩
    rcases Nat.eq_zero_or_pos (lastFinal ops) with e | e
    · rw [e] at h; exact absurd h (newest_zero hio.older ht)
    · exact e
  cases hd with
  | @«open» a k bs hnew h0 hb =>
    refine ⟨by simp, ?_⟩
    rintro owner bs1 e
    simp only [Option.some.injEq, Prod.mk.injEq] at e
    obtain ⟨rfl, rfl⟩ := e
    have hnew' := (hnw a k).1 hnew
    obtain ⟨c, hm, hak, -⟩ := newest_mem_ops hnew
    subst hak
    obtain ⟨h1, h2⟩ := hk.stream a c hm rfl
    rcases h2 with h2 | ⟨bs2, sa, hb2, hlay⟩
    · exact absurd h2 h0
    rw [hb] at hb2; cases hb2
    obtain ⟨p, hpo⟩ := owned_iff h0 h1
    have hdat : HonestData X a.account.data bs := by rw [hb]; exact ⟨rfl, rfl⟩
    obtain ⟨⟨bs3, hd3, hm3⟩, -⟩ := hs a c hm
    have : bs3 = bs := by
      have e1 := hd3.1; have e2 := hdat.1
      rw [e1] at e2; cases e2; rfl
    subst this
    have hmint := (hm3 sa hlay).1
    obtain ⟨r, bs', sa', g1, g2, g3, g4, g5, g6, g7⟩ := C86_content_partial X ops s par a k p bs3 sa hn hio.older hp hacc hr
      (hpos ⟨a, k, hnew'⟩) hnew' ht hch (hload ⟨a, k, hnew⟩) htw honly hpo hdat hlay (feed_known hc hs hi hn hr hmint) (hopen _ hmint)
    exact ⟨r, bs', sa, sa', g1, g2, by rw [g3, hlf], g4, g5, hlay, g6, g7⟩
  | @closed a k hnew h0 =>
    refine ⟨fun _ => ?_, by simp⟩
    have hnew' := (hnw a k).1 hnew
    obtain ⟨x, hx, h⟩ := C86_read_partial X ops s par pk a k hn hio.older hp hacc hr (hpos ⟨a, k, hnew'⟩) hnew' ht hch
      (hload ⟨a, k, hnew⟩) htw honly
    obtain ⟨-, -, -, s0, s0', -, -, -, -, hcl⟩ := hx
    rw [classify_deleted X _ (.inl h0)] at hcl
    simp only [Run.ok.injEq, Prod.mk.injEq, Option.some.injEq] at hcl
    rw [h, ← hcl.1]
    rfl
  | @archive w hnone hlast hw =>
    refine ⟨by simp, ?_⟩
    rintro owner bs1 e
    simp only [Option.some.injEq, Prod.mk.injEq] at e
    obtain ⟨rfl, rfl⟩ := e
    subst hw
    have hwm := lastOf_mem hlast
    obtain ⟨sa, hlay⟩ := hk.archive w hwm rfl
    obtain ⟨pre, post, e, hpost⟩ := feed_last hi hlast
    have hlen : pre.length + 1 + post.length < 2 ^ 31 := by rw [e] at hn; simp at hn; omega
    have e' : ops = (pre ++ [.init w.submitted]) ++ post := by simp [e]
    have hr' := hr
    rw [e'] at hr'
    obtain ⟨s2, hr2, hr3⟩ := (storeRun_append _ _).1 hr'
    obtain ⟨s1, hr1, hst⟩ := run_snoc hr2
    obtain ⟨slots1, orig1, i1⟩ := reach_inv (by omega) hr1
    obtain ⟨t, t1, t2⟩ := init_token i1 (by omega) (owned_of hc hwm) (honest_submitted X w) hlay hst
    have huns := stream_unseen (w := true) (X := X) (par := par) (s0 := s2) (s := s) (pk := w.pubkey) (pre ++ [.init w.submitted]) post
      (by rw [← e']; exact hn) hio.older (by rw [← e']; exact hp) (by rw [← e']; exact ht) (by rw [← e']; exact hch)
      (by rw [← e']; exact fun _ => htw) (by rw [← e']; exact hacc) hr2 hr3
      (by rw [← e']; exact fun a k h => hnone a k ((hnw a k).2 h)) hpost
    have hrec : (recOf s slots w.pubkey).token = some t := by
      have := getByPubkey_recOf inv.fin w.pubkey
      rw [huns.token rfl] at this
      have t2' : s2.tokens.getByPubkey w.pubkey = .ok (some t) := t2
      rw [t2'] at this
      simpa using this.symm
    have hmint := hc.mints w hwm sa hlay
    obtain ⟨r, bs', sa', g1, g2, g3, g4, g5, g6, g7⟩ := classified_read hn hr e hr1 hr2 t1 (owned_of hc hwm) (honest_submitted X w) hlay
      (feed_known hc hs hi hn hr hmint) (hopen _ hmint) s.finalizedSlot
    refine ⟨r, bs', sa, sa', ?_, g2, by rw [g3, hfs, hlf], g4, g5, hlay, g6, g7⟩
    rw [hg, ((getFinalized_eq inv.fin w.pubkey).2.2.2.1 j1 (by simp [recOf, j2]) t hrec).1]
    exact g1
  | absent hnone hw =>
    refine ⟨fun _ => ?_, by simp⟩
    have huns := stream_unseen (w := true) (X := X) (par := par) (s0 := .empty) (s := s) (pk := pk) [] ops hn hio.older hp ht hch (fun _ => htw) hacc
      rfl hr (fun a k h => hnone a k ((hnw a k).2 h)) (feed_absent hi hw)
    have hrec : (recOf s slots pk).token = none := by
      have := getByPubkey_recOf inv.fin pk
      rw [huns.token rfl] at this
      have e0 : TokenStore.empty.tokens.getByPubkey pk = .ok none := rfl
      rw [e0] at this
      simpa using this.symm
    rw [hg, (getFinalized_eq inv.fin pk).2.2.2.2 j1 (by simp [recOf, j2]) hrec]

end LAM.Token
