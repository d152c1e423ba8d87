import Verif.Props.ProgramList
import Verif.Props.ProgramMint
/-!
# C125: what the simulator program lists for a mint about unfinalized slots
-/
namespace LAM.Props
open Spec Token Sim ProcStore
open TokenStore (TOp)

/-- The request asks for the token accounts of `mint`, whoever owns them, at the commitment `c`, without context. -/
structure MintRequestAt {U : Type} (X : Codecs) (E : Rpc.Externals U) (key : Bytes)
    (config : Option Rpc.ProgramConfig) (program : Pubkey) (l : List AccountFilterType) (mint : Pubkey) (c : Commitment) : Prop where
  parsed : E.parse key = some program
  token : program = Spl.tokenId ∨ program = Spl.token2022Id
  filters : FiltersFor X config (some l)
  asks : AsksMint program l mint
  anyone : ∀ owner, ¬ AsksOwner program l owner
  plain : ¬ WantsContext config
  level : commitmentFor (config.map (·.account)) = c

/-- **C125**, as claimed: once the archive is loaded, and while the stream is followed and in order, `getProgramAccounts` for the
token accounts of a mint at the confirmed or processed commitment lists, once each, the accounts of the program that pass the
filters as of the slot of that commitment, as they are then, and no others. The conditions under which `getAccountInfo` shows
these states (C109, C110) are taken for granted. -/
def C125_statement : Prop :=
  ∀ (U : Type) (X : Codecs) (E : Rpc.Externals U) (L : Lz4Block) (decode : Bytes → Option Manifest) (items : List Item)
    (ws : List (Nat × Written)) (evs : List Event) (w : Main) (σ : Orders) (o : SnapshotOrders) (key : Bytes)
    (config : Option Rpc.ProgramConfig) (program mint : Pubkey) (l : List AccountFilterType) (c : Commitment),
    WellFormedArchive decode items ws → Consistent (tokenOwned (ws.map (·.2))) → Plain evs → StreamRespects X ws evs →
    Event.hangUp ∉ evs → ws.length + evs.length < 2 ^ 31 → LoadsFirst X decode true evs (Main.start true items) →
    (∀ σ info c, TOp.slot σ info c ∈ streamed evs → info.parent < info.slot) →
    (Main.start true items).run X decode evs = .ok w → w.serves → (∀ p q, E.text p = E.text q → p = q) → c ≠ .finalized →
    MintRequestAt X E key config program l mint c →
    ∃ shown, Rpc.getProgramAccounts X E (storageOf X L σ o w.store) key config = .ok (.ok (.noContext shown)) ∧
      ∀ par pk slot d, TokenKey ws evs pk → InOrder X par evs pk → Followed X par evs pk c →
        CurrentAt ws evs par pk (tipOf (streamed evs) c) slot d →
        (∀ bs, d = some (program, bs) → (∀ f ∈ l, Allows X f bs) →
          ∃ k ∈ shown, EntryFor X E (config.map (·.account)) pk program bs k) ∧
        (∀ k ∈ shown, k.pubkey = E.text pk → ∃ bs, d = some (program, bs) ∧ (∀ f ∈ l, Allows X f bs) ∧
          EntryFor X E (config.map (·.account)) pk program bs k) ∧
        ∀ (i j : Nat) k k', shown[i]? = some k → shown[j]? = some k' → k.pubkey = E.text pk → k'.pubkey = E.text pk → i = j

/-- The mint of the data to be shown is the one kept. -/
theorem mint_current {ws : List (Nat × Written)} {evs : List Event} {par : Nat → Nat} {pk mk p : Pubkey} {bs : Bytes} {sa : Spl.Account}
    (ho : MintKept ws evs pk mk) (hd : Current ws evs par pk (some (p, bs))) (hl : AccountLayout bs sa) : sa.mint = mk := by
  cases hd with
  | «open» h1 h2 h3 =>
    obtain ⟨c, hm, hpk⟩ := newest_from h1
    exact ho.stream _ c hm hpk _ _ h3 hl
  | archive h1 h2 h3 =>
    obtain ⟨l, l', e, -⟩ := h2
    exact ho.archive _ (by rw [e]; simp) h3 _ hl

theorem mint_currentAt {ws : List (Nat × Written)} {evs : List Event} {par : Nat → Nat} {pk mk p : Pubkey} {bs : Bytes} {sa : Spl.Account}
    {tip slot : Nat} (ho : MintKept ws evs pk mk) (hd : CurrentAt ws evs par pk tip slot (some (p, bs))) (hl : AccountLayout bs sa) :
    sa.mint = mk := by
  cases hd with
  | «open» h1 h2 h3 h4 =>
    obtain ⟨c, hm, hpk⟩ := newest_from h1
    exact ho.stream _ c hm hpk _ _ h4 hl
  | final h1 h2 => exact mint_current ho h2 hl

/-- **C125**, the part that holds: a token account that stays with its mint and is open as of the last finalized slot is listed for this
mint in its state as of the commitment's slot, unless it is closed then, and it is listed for no other mint; whatever is listed is in
this state, was open as of the last finalized slot, and is listed once. What is missing: accounts opened since the last finalized slot,
and all that is missing in C113. -/
theorem C125_partial {U : Type} (X : Codecs) (E : Rpc.Externals U) (L : Lz4Block) (decode : Bytes → Option Manifest)
    (items : List Item) (ws : List (Nat × Written)) (evs : List Event) (w : Main) (σ : Orders) (o : SnapshotOrders) (key : Bytes)
    (config : Option Rpc.ProgramConfig) (program mint : Pubkey) (l : List AccountFilterType) (c : Commitment)
    (ha : WellFormedArchive decode items ws) (hc : Consistent (tokenOwned (ws.map (·.2)))) (hp : Plain evs)
    (hsr : StreamRespects X ws evs) (hh : Event.hangUp ∉ evs) (hn : ws.length + evs.length < 2 ^ 31)
    (hf : LoadsFirst X decode true evs (Main.start true items))
    (hold : ∀ σ info c, TOp.slot σ info c ∈ streamed evs → info.parent < info.slot)
    (hr : (Main.start true items).run X decode evs = .ok w)
    (hs : w.serves) (ht : ∀ p q, E.text p = E.text q → p = q) (hcf : c ≠ .finalized)
    (hq : MintRequestAt X E key config program l mint c) :
    ∃ shown, Rpc.getProgramAccounts X E (storageOf X L σ o w.store) key config = .ok (.ok (.noContext shown)) ∧
      ∀ par pk slot d df, TokenKey ws evs pk → InOrder X par evs pk → Followed X par evs pk c →
        Current ws evs par pk df → CurrentAt ws evs par pk (tipOf (streamed evs) c) slot d →
        (∀ mk p bs pf bf, MintKept ws evs pk mk → ArchiveMint ws mk → df = some (pf, bf) → d = some (p, bs) →
          mk = mint → ∃ k ∈ shown, EntryFor X E (config.map (·.account)) pk p bs k) ∧
        (∀ k ∈ shown, k.pubkey = E.text pk → ∃ p bs, d = some (p, bs) ∧ EntryFor X E (config.map (·.account)) pk p bs k ∧ df ≠ none ∧
          ∀ mk, MintKept ws evs pk mk → ArchiveMint ws mk → mk = mint ∧ Allows X (.memcmp ⟨0, .bytes mint.bytes⟩) bs) ∧
        ∀ (i j : Nat) k k', shown[i]? = some k → shown[j]? = some k' → k.pubkey = E.text pk → k'.pubkey = E.text pk → i = j := by
  obtain ⟨hl, ix, n, slots, orig, rdy, inv⟩ := served_ready ha hc hp hsr hh (by omega) hf hr hs
  obtain ⟨ops, i1, i2, i3⟩ := served_feed ha hp hr hs hl
  have hlen := feed_length i1 hn
  obtain ⟨e1, e2⟩ := C53_reads_end_partial X ops w.store (fun σ info c hm => by
    rcases (interleaved_mem i1 _).1 hm with h | h
    · obtain ⟨v, -, h⟩ := archived_kind h
      cases h
    · exact hold σ info c h) i2
  have o1 := mint_of hq.asks hq.anyone
  have hw : ∀ l', some l = some l' → (∀ f ∈ l', ∀ d, ∃ b, f.allows X d = .ok b) ∧
      ∀ ow m, ownerMintFilter program l' = (some ow, some m) → w.store.table.index.find m ≠ none := by
    rintro l' e
    cases e
    refine ⟨fun f hf d => ?_, fun ow m e => ?_⟩
    · obtain ⟨b, hb, -⟩ := allows_ok X f d (filters_wellFormed hq.filters l rfl f hf)
      exact ⟨b, hb⟩
    · rw [o1] at e
      cases e
  have hgpa : ∃ rs, w.store.getProgramAccounts X σ program (some l) .finalized = .ok (.ok rs) := by
    obtain ⟨r, hr⟩ := gpaFinalized_ready inv.fin rdy σ program (some l) hw
    cases r with
    | ok rs =>
      refine ⟨rs, ?_⟩
      unfold TokenStore.getProgramAccounts
      rw [if_neg (by rcases hq.token with h | h <;> simp [h]), hr]
      simp
    | error e =>
      exfalso
      unfold TokenStore.gpaFinalized at hr
      simp only [o1] at hr
      split at hr
      · split at hr
        · simp only [Run.bind_eq_ok] at hr
          obtain ⟨_, -, _, -, hr⟩ := hr
          cases hr
        · cases hr
      · cases hr
  obtain ⟨fs, hgpa⟩ := hgpa
  obtain ⟨rs, hgc⟩ := query_answered hgpa (getProgramAccounts_ready (X := X) inv rdy σ program (some l) c hw) (e2 σ program (some l) c)
  obtain ⟨ys, y1, y2⟩ := C69_per_account X ops w.store σ program (some l) c fs rs hlen i2 hcf hgpa hgc (fun f _ => e1 f.pubkey c)
  have ykey : ∀ f r, ShownFor w.store c f (some r) → r.pubkey = f.pubkey := by
    rintro f r (⟨h, -⟩ | h)
    · cases h; rfl
    · exact read_pubkey (r := { r with wv := 0 }) inv h
  obtain ⟨shown, s1, s2⟩ := list_shown (S := storageOf X L σ o w.store) hq.parsed hq.filters hq.plain
    (by rw [hq.level]; exact hgc) (fun a h => (raw_query hgc a h).readable)
  refine ⟨shown, s1, ?_⟩
  intro par pk slot d df hk hio hfo hdf hd
  have hlo : LoadedFirst pk ops := i3 (fun pre σ slot parent level post e h => hf pre σ slot parent level post e (.inl (by simpa using h))) pk
  obtain ⟨f1, f2⟩ := feed_read hc hsr hk hio i1 hlen i2 (fun _ _ => hlo) hdf
  obtain ⟨g1, g2⟩ := followed_read hc hsr hk hio i1 hlen i2 hlo hcf hfo hd
  have htw : NoTwinClosed X pk ops := feed_noTwin hc hk i1
  have hon := feed_only hc hsr hk i1
  obtain ⟨j1, j2, -⟩ := stream_only ops hlen hon i2
  refine ⟨?_, ?_, ?_⟩
  · intro mk p bs pf bf hmk hmm hdf' hd' hmint
    subst hmint
    obtain ⟨rf, bf', sf, sf', k1, k2, -, k4, k5, k6, k7, k8⟩ := f2 pf bf hdf'
    subst hdf'
    have hmem := C69_mint_partial X ops w.store mk σ program mk pk l fs rf bf' hlen i2 (mint_fixed hc hsr hmk i1)
      (mint_open hc hsr hmm i1) hq.asks hq.anyone hgpa j1 j2 k1 k5
      ((allows_mint k7 _).2 (by rw [← k8.mint]; exact mint_current hmk hdf k6))
    obtain ⟨y, hy, hsh⟩ := forall₂_left y1 hmem
    obtain ⟨r, bs', sa, sa', m1, m2, -, m4, m5, m6, m7, m8⟩ := g2 p bs hd'
    have : ∃ r', y = some r' ∧ r'.pubkey = pk ∧ r'.account = r.account := by
      rcases hsh with ⟨h1, h2⟩ | h
      · rw [k2, m1, k1] at h2
        cases h2
        exact ⟨rf, h1, k2, rfl⟩
      · rw [k2, m1] at h
        cases y with
        | none => cases h
        | some r' =>
          simp only [Option.map_some, Run.ok.injEq, Option.some.injEq] at h
          subst h
          exact ⟨r', rfl, m2, rfl⟩
    obtain ⟨r', rfl, n1, n2⟩ := this
    have hr' : r' ∈ rs := by rw [y2]; exact List.mem_filterMap.2 ⟨_, hy, rfl⟩
    obtain ⟨k, q1, q2, q3⟩ := forall₂_left s2 hr'
    exact ⟨k, q1, by rw [q2, n1], r', bs', sa, sa', q3, n1, by rw [n2, m4], by rw [n2]; exact m5.1, m6, m7, m8⟩
  · intro k hk1 hkp
    obtain ⟨a, a1, a2, a3⟩ := forall₂_right s2 hk1
    have apk : a.pubkey = pk := ht _ _ (by rw [← a2, hkp])
    obtain ⟨f, hff, hsh⟩ := forall₂_kept y1 (by rw [← y2]; exact a1)
    have fpk : f.pubkey = pk := by rw [← apk]; exact (ykey f a hsh).symm
    have hread := listed_read_mint hlen htw hon i2 hq.asks hq.anyone hgpa hff fpk
    have hat : ∃ r, w.store.getAccount pk c = .ok (some r) ∧ r.account = a.account := by
      rcases hsh with ⟨h1, h2⟩ | h
      · cases h1
        rw [fpk, hread] at h2
        exact ⟨_, h2, rfl⟩
      · rw [fpk] at h
        exact ⟨_, h, rfl⟩
    obtain ⟨r, hr1, hr2⟩ := hat
    cases df with
    | none => rw [f1 rfl] at hread; cases hread
    | some q =>
    cases d with
    | none => rw [g1 rfl] at hr1; cases hr1
    | some q' =>
    obtain ⟨p, bs⟩ := q'
    obtain ⟨r', bs', sa, sa', m1, m2, -, m4, m5, m6, m7, m8⟩ := g2 p bs rfl
    rw [hr1] at m1
    cases m1
    refine ⟨p, bs, rfl, ⟨hkp, a, bs', sa, sa', a3, apk, by rw [← hr2, m4], by rw [← hr2]; exact m5.1, m6, m7, m8⟩, by simp,
      fun mk hmk hmm => ?_⟩
    obtain ⟨f0, -⟩ := C57_mint_partial X ops w.store mk σ program mint l fs f hlen i2
      (by rw [fpk]; exact mint_fixed hc hsr hmk i1) (mint_open hc hsr hmm i1) hq.asks hq.anyone hgpa hff
    exact ⟨f0.symm, (allows_mint m6 _).2 (by rw [mint_currentAt hmk hd m6, f0])⟩
  · intro i j k k' h1 h2 h3 h4
    refine forall₂_once (q := fun k => k.pubkey = E.text pk) (p := fun r : AccountData => decide (r.pubkey = pk))
      (fun a b hab hb => by simp only [decide_eq_true_eq]; exact ht _ _ (by rw [← hab.1, hb])) s2 ?_ h1 h2 h3 h4
    rw [y2]
    exact Nat.le_trans (kept_count (p := fun r : AccountData => decide (r.pubkey = pk))
      (fun f r h => by rw [ykey f r h]) y1) (listed_once_mint hlen htw i2 hq.asks hq.anyone hgpa)

/-! ### Samples: `alice` changes and `bob` is opened at slot 4, which is confirmed -/

/-- The token accounts of the mint `prog`, confirmed. -/
def progConfirmed : Option Rpc.ProgramConfig :=
  some ⟨some [.dataSize 165, .memcmp 0 (.bytes Toy.prog.bytes)], ⟨none, none, some .confirmed, none⟩, none⟩

theorem prog_confirmed : MintRequestAt Toy.codecs bytesExternals Spl.tokenId.bytes progConfirmed Spl.tokenId ofProg Toy.prog .confirmed := by
  have h := prog_request (program := Spl.tokenId) (.inl rfl)
  refine ⟨h.parsed, h.token, .cons rfl (.cons rfl .nil), h.asks, h.anyone, ?_, rfl⟩
  rintro ⟨c, h, h'⟩
  cases h
  simp at h'

/-- C125 is false: `bob`'s account is opened at slot 4, which is confirmed, but it is not listed. -/
theorem C125_refuted : ¬ C125_statement := by
  intro h
  obtain ⟨w, hr, hw⟩ := of_check (r := oneRun openedBob)
    (p := fun w => isDone w.loader && decide (listShown w Spl.tokenId progConfirmed = some [(Toy.alice.bytes, 99)])) (by decide +kernel)
  simp only [Bool.and_eq_true, decide_eq_true_eq] at hw
  obtain ⟨h1, h2⟩ := hw
  have hS := opened_sampled
  obtain ⟨shown, s1, s2⟩ := h Bytes Toy.codecs bytesExternals plainLz4 oneDecode (archiveOf oneFile) oneAccounts openedBob w plainOrders
    plainSnapshotOrders Spl.tokenId.bytes progConfirmed Spl.tokenId Toy.prog ofProg .confirmed one_ok one_consistent (sampled_plain hS)
    (sampled_respects hS) (by simp [openedBob, afterLoading, aliceAt, bobAt, confirms, messageOf]) (by decide) (opened_first true) opened_older
    hr (serves_of h1) text_injective (by decide) prog_confirmed
  have e : listAnswer w Spl.tokenId progConfirmed = .ok (.ok (.noContext shown)) := s1
  rw [listShown, e] at h2
  simp only [Option.some.injEq] at h2
  have hnew : NewestTrue (streamed openedBob) before Toy.bob (confirmedOf (streamed openedBob)) (tokenAcct Toy.bob 4 1) 4 := by
    rw [opened_confirmed]
    exact .here ⟨[], [], by decide +kernel, by simp, by simp⟩
  obtain ⟨k, hk, hp, -⟩ := (s2 before Toy.bob 4 (some (Spl.tokenId, splAccount.pack)) (opened_key (.inr rfl)) opened_order
    (opened_followed (.inr rfl))
    (CurrentAt.open (a := tokenAcct Toy.bob 4 1) hnew (by rw [opened_final]; decide) (by simp [tokenAcct, Toy.acct]) rfl)).1 splAccount.pack rfl (by
      intro f hf
      simp only [ofProg, List.mem_cons, List.not_mem_nil, or_false] at hf
      rcases hf with rfl | rfl
      · exact spl_layout.length
      · exact (allows_mint spl_layout _).2 rfl)
  have hm : (k.pubkey, leNat (field k.account 64 8)) ∈ shown.map (fun k => (k.pubkey, leNat (field k.account 64 8))) :=
    List.mem_map.2 ⟨k, hk, rfl⟩
  rw [h2, hp] at hm
  simp only [List.mem_singleton, Prod.mk.injEq] at hm
  exact absurd hm.1 (show bytesExternals.text Toy.bob ≠ Toy.alice.bytes by decide +kernel)

theorem opened_mint_kept : MintKept oneAccounts openedBob Toy.alice Toy.prog := by
  refine ⟨?_, ?_⟩
  · intro v hv hp sa hsa
    rw [one_owned] at hv
    simp only [List.mem_cons, List.not_mem_nil, or_false] at hv
    rcases hv with rfl | rfl
    · exact absurd hp (by decide +kernel)
    · obtain rfl := accountLayout_unique hsa (token_layout _ (by decide))
      rfl
  · intro a c hm _ bs sa hb hsa
    rcases sampled_stream opened_sampled hm with ⟨k, -, h | h⟩ | ⟨k, -, -, h⟩ <;> cases h
    · cases hb
      obtain rfl := accountLayout_unique hsa other_layout
      rfl
    · cases hb
      obtain rfl := accountLayout_unique hsa spl_layout
      rfl

/-- In the sample the 99 of `alice`, confirmed but not finalized, is listed. -/
example : ∃ w shown, oneRun openedBob = .ok w ∧ listAnswer w Spl.tokenId progConfirmed = .ok (.ok (.noContext shown)) ∧
    ∃ k ∈ shown, EntryFor Toy.codecs bytesExternals (some ⟨none, none, some .confirmed, none⟩) Toy.alice Spl.tokenId otherBytes k := by
  obtain ⟨w, hr, hw⟩ := of_check (r := oneRun openedBob) (p := fun w => isDone w.loader) (by decide +kernel)
  have hS := opened_sampled
  obtain ⟨shown, s1, s2⟩ := C125_partial Toy.codecs bytesExternals plainLz4 oneDecode (archiveOf oneFile) oneAccounts openedBob w plainOrders
    plainSnapshotOrders Spl.tokenId.bytes progConfirmed Spl.tokenId Toy.prog ofProg .confirmed one_ok one_consistent (sampled_plain hS)
    (sampled_respects hS) (by simp [openedBob, afterLoading, aliceAt, bobAt, confirms, messageOf]) (by decide) (opened_first true) opened_older
    hr (serves_of hw) text_injective (by decide) prog_confirmed
  refine ⟨w, shown, hr, s1, ?_⟩
  have hnew : NewestTrue (streamed openedBob) before Toy.alice (confirmedOf (streamed openedBob)) (otherAcct 4 1) 4 := by
    rw [opened_confirmed]
    exact .here ⟨[], [], by decide +kernel, by simp, by simp⟩
  exact (s2 before Toy.alice 4 (some (Spl.tokenId, otherBytes)) _ (opened_key (.inl rfl)) opened_order (opened_followed (.inl rfl)) opened_current
    (CurrentAt.open (a := otherAcct 4 1) hnew (by rw [opened_final]; decide) (by simp [otherAcct, Toy.acct]) rfl)).1 Toy.prog _ otherBytes _ _
    opened_mint_kept one_mint rfl rfl rfl

/-- The mint that `getAccountInfo` shows for a key at the confirmed commitment. -/
def confirmedMint (w : Main) (pk : Pubkey) : Option Bytes :=
  match Rpc.getAccountInfo Toy.codecs bytesExternals (storageOf Toy.codecs plainLz4 plainOrders plainSnapshotOrders w.store) pk.bytes confirmedConfig with
  | .ok (.ok ⟨_, some bs⟩) => some (field bs 0 32)
  | _ => none

/-- **C125**. In the sample `getAccountInfo` shows `bob`'s account, which is of the mint `prog`. -/
theorem C125_opened_missed : ∃ w, oneRun openedBob = .ok w ∧ w.serves ∧ w.listening = true ∧
    confirmedMint w Toy.bob = some Toy.prog.bytes ∧ listShown w Spl.tokenId progConfirmed = some [(Toy.alice.bytes, 99)] := by
  obtain ⟨w, hr, hw⟩ := of_check (r := oneRun openedBob)
    (p := fun w => isDone w.loader && w.listening && decide (confirmedMint w Toy.bob = some Toy.prog.bytes) &&
      decide (listShown w Spl.tokenId progConfirmed = some [(Toy.alice.bytes, 99)])) (by decide +kernel)
  simp only [Bool.and_eq_true, decide_eq_true_eq] at hw
  exact ⟨w, hr, serves_of hw.1.1.1, hw.1.1.2, hw.1.2, hw.2⟩

end LAM.Props
