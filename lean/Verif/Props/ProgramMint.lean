import Verif.Lemmas.ProgramMint
import Verif.Props.ProgramQuery
/-!
# C113: what the simulator program lists for a mint
-/
namespace LAM.Props
open Spec Token Sim ProcStore
open TokenStore (TOp)

/-- The request asks for the finalized token accounts of `mint`, whoever owns them, without context. -/
structure MintRequest {U : Type} (X : Codecs) (E : Rpc.Externals U) (key : Bytes)
    (config : Option Rpc.ProgramConfig) (program : Pubkey) (l : List AccountFilterType) (mint : Pubkey) : Prop where
  parsed : E.parse key = some program
  token : program = Spl.tokenId ∨ program = Spl.token2022Id
  filters : FiltersFor X config (some l)
  asks : AsksMint program l mint
  anyone : ∀ owner, ¬ AsksOwner program l owner
  plain : ¬ WantsContext config
  finalized : commitmentFor (config.map (·.account)) = .finalized

/-- **C113**, as claimed: once the archive is loaded, and while the stream is followed and in order, `getProgramAccounts` for the
token accounts of a mint lists, once each, the accounts of the program that pass the filters as of the last finalized slot,
as they are then, and no others. -/
def C113_statement : Prop :=
  ∀ (U : Type) (X : Codecs) (E : Rpc.Externals U) (L : Lz4Block) (decode : Bytes → Option Manifest) (items : List Item)
    (ws : List (Nat × Written)) (evs : List Event) (w : Main) (σ : Orders) (o : SnapshotOrders) (key : Bytes)
    (config : Option Rpc.ProgramConfig) (program mint : Pubkey) (l : List AccountFilterType),
    WellFormedArchive decode items ws → Consistent (tokenOwned (ws.map (·.2))) → Plain evs → StreamRespects X ws evs →
    Event.hangUp ∉ evs → ws.length + evs.length < 2 ^ 31 → LoadsFirst X decode true evs (Main.start true items) →
    (Main.start true items).run X decode evs = .ok w → w.serves → (∀ p q, E.text p = E.text q → p = q) →
    MintRequest X E key config program l mint →
    ∃ shown, Rpc.getProgramAccounts X E (storageOf X L σ o w.store) key config = .ok (.ok (.noContext shown)) ∧
      ∀ par pk d, TokenKey ws evs pk → InOrder X par evs pk → Current ws evs par pk d →
        (∀ bs, d = some (program, bs) → (∀ f ∈ l, Allows X f bs) →
          ∃ k ∈ shown, EntryFor X E (config.map (·.account)) pk program bs k) ∧
        (∀ k ∈ shown, k.pubkey = E.text pk → ∃ bs, d = some (program, bs) ∧ (∀ f ∈ l, Allows X f bs) ∧
          EntryFor X E (config.map (·.account)) pk program bs k) ∧
        ∀ (i j : Nat) k k', shown[i]? = some k → shown[j]? = some k' → k.pubkey = E.text pk → k'.pubkey = E.text pk → i = j

/-- **C113**, the part that holds: a token account that stays with its mint is listed for this mint and for no other, whatever is
listed is as of the last finalized slot, and it is listed once. What is missing: an account whose mint changes stays listed for
the first one, and the program and the other filters are not looked at. -/
theorem C113_partial {U : Type} (X : Codecs) (E : Rpc.Externals U) (L : Lz4Block) (decode : Bytes → Option Manifest)
    (items : List Item) (ws : List (Nat × Written)) (evs : List Event) (w : Main) (σ : Orders) (o : SnapshotOrders) (key : Bytes)
    (config : Option Rpc.ProgramConfig) (program mint : Pubkey) (l : List AccountFilterType)
    (ha : WellFormedArchive decode items ws) (hc : Consistent (tokenOwned (ws.map (·.2)))) (hp : Plain evs)
    (hsr : StreamRespects X ws evs) (hh : Event.hangUp ∉ evs) (hn : ws.length + evs.length < 2 ^ 31)
    (hf : LoadsFirst X decode true evs (Main.start true items)) (hr : (Main.start true items).run X decode evs = .ok w)
    (hs : w.serves) (ht : ∀ p q, E.text p = E.text q → p = q) (hq : MintRequest X E key config program l mint) :
    ∃ shown, Rpc.getProgramAccounts X E (storageOf X L σ o w.store) key config = .ok (.ok (.noContext shown)) ∧
      ∀ par pk d, TokenKey ws evs pk → InOrder X par evs pk → Current ws evs par pk d →
        (∀ mk p bs, MintKept ws evs pk mk → ArchiveMint ws mk → d = some (p, bs) → (∀ f ∈ l, Allows X f bs) →
          ∃ k ∈ shown, EntryFor X E (config.map (·.account)) pk p bs k) ∧
        (∀ k ∈ shown, k.pubkey = E.text pk → ∃ p bs, d = some (p, bs) ∧ EntryFor X E (config.map (·.account)) pk p bs k ∧
          ∀ mk, MintKept ws evs pk mk → ArchiveMint ws mk → mk = mint ∧ Allows X (.memcmp ⟨0, .bytes mint.bytes⟩) bs) ∧
        ∀ (i j : Nat) k k', shown[i]? = some k → shown[j]? = some k' → k.pubkey = E.text pk → k'.pubkey = E.text pk → i = j := by
  obtain ⟨hl, ix, n, slots, orig, rdy, inv⟩ := served_ready ha hc hp hsr hh (by omega) hf hr hs
  obtain ⟨ops, i1, i2, i3⟩ := served_feed ha hp hr hs hl
  have hlen := feed_length i1 hn
  have o1 := mint_of hq.asks hq.anyone
  have hgpa : ∃ rs, w.store.getProgramAccounts X σ program (some l) .finalized = .ok (.ok rs) := by
    obtain ⟨r, hr⟩ := gpaFinalized_ready inv.fin rdy σ program (some l) (by
      rintro l' e
      cases e
      refine ⟨fun f hf d => ?_, fun ow m e => ?_⟩
      · obtain ⟨b, hb, -⟩ := allows_ok X f d (filters_wellFormed hq.filters l rfl f hf)
        exact ⟨b, hb⟩
      · rw [o1] at e
        cases e)
    cases r with
    | ok rs =>
      refine ⟨rs, ?_⟩
      unfold TokenStore.getProgramAccounts
      rw [if_neg (by rcases hq.token with h | h <;> simp [h]), hr]
      simp
    | error e =>
      exfalso
      unfold TokenStore.gpaFinalized at hr
      simp only [o1] at hr
      split at hr
      · split at hr
        · simp only [Run.bind_eq_ok] at hr
          obtain ⟨_, -, _, -, hr⟩ := hr
          cases hr
        · cases hr
      · cases hr
  obtain ⟨rs, hgpa⟩ := hgpa
  obtain ⟨shown, s1, s2⟩ := list_shown (S := storageOf X L σ o w.store) hq.parsed hq.filters hq.plain
    (by rw [hq.finalized]; exact hgpa) (fun a h => (raw_query hgpa a h).readable)
  refine ⟨shown, s1, ?_⟩
  intro par pk d hk hio hd
  obtain ⟨g1, g2⟩ := feed_read hc hsr hk hio i1 hlen i2 (fun _ _ => i3 (fun pre σ slot parent level post e h => hf pre σ slot parent level post e (.inl (by simpa using h))) pk) hd
  have htw : NoTwinClosed X pk ops := feed_noTwin hc hk i1
  have hon := feed_only hc hsr hk i1
  obtain ⟨j1, j2, -⟩ := stream_only ops hlen hon i2
  refine ⟨?_, ?_, ?_⟩
  · intro mk p bs hmk hmm hd' hall
    obtain ⟨r, bs', sa, sa', e1, e2, -, e4, e5, e6, e7, e8⟩ := g2 p bs hd'
    have hmem := C69_mint_partial X ops w.store mk σ program mint pk l rs r bs' hlen i2 (mint_fixed hc hsr hmk i1)
      (mint_open hc hsr hmm i1) hq.asks hq.anyone hgpa j1 j2 e1 e5
      ((allows_mint e7 _).2 (by rw [← e8.mint]; exact (allows_mint e6 _).1 (hall _ (lastIs_filter hq.asks.2))))
    obtain ⟨k, k1, k2, k3⟩ := forall₂_left s2 hmem
    exact ⟨k, k1, by rw [k2, e2], r, bs', sa, sa', k3, e2, e4, e5.1, e6, e7, e8⟩
  · intro k hk1 hkp
    obtain ⟨a, a1, a2, a3⟩ := forall₂_right s2 hk1
    have apk : a.pubkey = pk := ht _ _ (by rw [← a2, hkp])
    have hread := listed_read_mint hlen htw hon i2 hq.asks hq.anyone hgpa a1 apk
    cases d with
    | none => rw [g1 rfl] at hread; cases hread
    | some pd =>
      obtain ⟨p, bs⟩ := pd
      obtain ⟨r, bs', sa, sa', e1, e2, -, e4, e5, e6, e7, e8⟩ := g2 p bs rfl
      rw [hread] at e1
      cases e1
      refine ⟨p, bs, rfl, ⟨hkp, a, bs', sa, sa', a3, apk, e4, e5.1, e6, e7, e8⟩, fun mk hmk hmm => ?_⟩
      obtain ⟨f0, bs2, f1, -, f2⟩ := C57_mint_partial X ops w.store mk σ program mint l rs a hlen i2
        (by rw [apk]; exact mint_fixed hc hsr hmk i1) (mint_open hc hsr hmm i1) hq.asks hq.anyone hgpa a1
      have : bs2 = bs' := by have := f1.1; rw [e5.1] at this; cases this; rfl
      subst this
      exact ⟨f0.symm, (allows_mint e6 _).2 (by rw [e8.mint]; exact (allows_mint e7 _).1 f2)⟩
  · intro i j k k' h1 h2 h3 h4
    exact forall₂_once (q := fun k => k.pubkey = E.text pk) (p := fun r : AccountData => decide (r.pubkey = pk))
      (fun a b hab hb => by simp only [decide_eq_true_eq]; exact ht _ _ (by rw [← hab.1, hb])) s2
      (listed_once_mint hlen htw i2 hq.asks hq.anyone hgpa) h1 h2 h3 h4

/-! ## Samples -/

/-- The token accounts of a mint. -/
def mintRequest (mint : Pubkey) : Option Rpc.ProgramConfig := requestOf [.dataSize 165, .memcmp 0 (.bytes mint.bytes)]

theorem prog_request {program : Pubkey} (hp : program = Spl.tokenId ∨ program = Spl.token2022Id) :
    MintRequest Toy.codecs bytesExternals program.bytes (mintRequest Toy.prog) program ofProg Toy.prog := by
  obtain ⟨h1, h2⟩ := C71_recognised program ofProg
  refine ⟨?_, hp, .cons rfl (.cons rfl .nil), (h2 _).1 ?_, fun m hm => absurd ((h1 m).2 hm) ?_, ?_, rfl⟩
  · rcases hp with rfl | rfl <;> decide +kernel
  · rcases hp with rfl | rfl <;> decide +kernel
  · rcases hp with rfl | rfl
    · rw [show (ownerMintFilter Spl.tokenId ofProg).1 = none by decide +kernel]; simp
    · rw [show (ownerMintFilter Spl.token2022Id ofProg).1 = none by decide +kernel]; simp
  · rintro ⟨c, h, h'⟩
    cases h
    simp at h'

/-- C113 is false: `alice` belongs to the Token program, but is listed for the Token-2022 program. -/
theorem C113_refuted : ¬ C113_statement := by
  intro h
  obtain ⟨w, hr, hw⟩ := of_check (r := oneRun loadedBefore)
    (p := fun w => isDone w.loader && decide (listShown w Spl.token2022Id (mintRequest Toy.prog) = some [(Toy.alice.bytes, 99)]))
    (by decide +kernel)
  simp only [Bool.and_eq_true, decide_eq_true_eq] at hw
  obtain ⟨h1, h2⟩ := hw
  obtain ⟨shown, s1, s2⟩ := h Bytes Toy.codecs bytesExternals plainLz4 oneDecode (archiveOf oneFile) oneAccounts loadedBefore w plainOrders
    plainSnapshotOrders Spl.token2022Id.bytes (mintRequest Toy.prog) Spl.token2022Id Toy.prog ofProg one_ok one_consistent plain_before
    (one_respects (fun a c hm => by rw [streamed_before] at hm; exact update_stream hm))
    (by simp [loadedBefore, aliceChanges, messageOf, slotMsg]) (by decide) (before_first true) hr (serves_of h1) text_injective
    (prog_request (.inr rfl))
  have e : listAnswer w Spl.token2022Id (mintRequest Toy.prog) = .ok (.ok (.noContext shown)) := s1
  rw [listShown, e] at h2
  simp only [Option.some.injEq] at h2
  obtain ⟨k, hk, hk'⟩ : ∃ k ∈ shown, (k.pubkey, leNat (field k.account 64 8)) = (Toy.alice.bytes, 99) := by
    have : (Toy.alice.bytes, 99) ∈ shown.map (fun k => (k.pubkey, leNat (field k.account 64 8))) := by rw [h2]; simp
    simpa using List.mem_map.1 this
  obtain ⟨bs, hd, -⟩ := (s2 before Toy.alice _ (one_key streamed_before) (one_order streamed_before) (one_current streamed_before)).2.1 k hk
    (by simp only [Prod.mk.injEq] at hk'; exact hk'.1)
  simp only [Option.some.injEq, Prod.mk.injEq] at hd
  exact absurd hd.1 (by decide +kernel)

theorem one_mint : ArchiveMint oneAccounts Toy.prog := ⟨wMint, by rw [one_owned]; simp, by decide +kernel, _, mint_layout⟩

theorem one_mint_kept : MintKept oneAccounts loadedBefore Toy.alice Toy.prog := by
  refine ⟨?_, ?_⟩
  · intro v hv hp sa hsa
    rw [one_owned] at hv
    simp only [List.mem_cons, List.not_mem_nil, or_false] at hv
    rcases hv with rfl | rfl
    · exact absurd hp (by decide +kernel)
    · obtain rfl := accountLayout_unique hsa (token_layout _ (by decide))
      rfl
  · intro a c hm _ bs sa hb hsa
    rw [streamed_before] at hm
    obtain rfl := update_stream hm
    cases hb
    obtain rfl := accountLayout_unique hsa other_layout
    rfl

/-- The sample: the 99 of `alice` is listed for the mint `prog`. -/
example : ∃ w shown, oneRun loadedBefore = .ok w ∧ listAnswer w Spl.tokenId (mintRequest Toy.prog) = .ok (.ok (.noContext shown)) ∧
    ∃ k ∈ shown, EntryFor Toy.codecs bytesExternals (some ⟨none, none, none, none⟩) Toy.alice Spl.tokenId otherBytes k := by
  obtain ⟨w, hr, hw⟩ := of_check (r := oneRun loadedBefore) (p := fun w => isDone w.loader) (by decide +kernel)
  obtain ⟨shown, s1, s2⟩ := C113_partial Toy.codecs bytesExternals plainLz4 oneDecode (archiveOf oneFile) oneAccounts loadedBefore w
    plainOrders plainSnapshotOrders Spl.tokenId.bytes (mintRequest Toy.prog) Spl.tokenId Toy.prog ofProg one_ok one_consistent plain_before
    (one_respects (fun a c hm => by rw [streamed_before] at hm; exact update_stream hm))
    (by simp [loadedBefore, aliceChanges, messageOf, slotMsg]) (by decide) (before_first true) hr (serves_of hw) text_injective
    (prog_request (.inl rfl))
  refine ⟨w, shown, hr, s1, ?_⟩
  refine (s2 before Toy.alice _ (one_key streamed_before) (one_order streamed_before) (one_current streamed_before)).1 Toy.prog _ otherBytes
    one_mint_kept one_mint rfl ?_
  intro f hf
  simp only [ofProg, List.mem_cons, List.not_mem_nil, or_false] at hf
  rcases hf with rfl | rfl
  · exact other_layout.length
  · exact (allows_mint other_layout _).2 rfl

/-- `alice`'s account is closed and created again for the mint `prog2` within slot 4; the mint `prog2` is new, too. -/
def movedBytes : Bytes := ({ splAccount with mint := Toy.prog2 }).pack

def movedMint : List Event :=
  afterLoading [messageOf (Toy.acct Toy.prog2 Spl.tokenId 7 3 1 (mintBytes aMint)) (mintBytes aMint), slotMsg 3 .confirmed, slotMsg 3 .finalized,
    messageOf (Toy.acct Toy.alice Spl.tokenId 7 4 1 movedBytes) movedBytes, slotMsg 4 .confirmed, slotMsg 4 .finalized]

/-- The keys and mints listed, if any. -/
def mintsShown (w : Main) (config : Option Rpc.ProgramConfig) : Option (List (Bytes × Bytes)) :=
  match listAnswer w Spl.tokenId config with
  | .ok (.ok (.noContext l)) => some (l.map (fun k => (k.pubkey, field k.account 0 32)))
  | _ => none

/-- **C113**. The account is still listed for its first mint, showing the other one, and is not listed for the other one. -/
theorem C113_other_mint_listed : ∃ w, oneRun movedMint = .ok w ∧ w.serves ∧ w.listening = true ∧
    mintsShown w (mintRequest Toy.prog) = some [(Toy.alice.bytes, Toy.prog2.bytes)] ∧
    mintsShown w (mintRequest Toy.prog2) = some [] := by
  obtain ⟨w, hr, hw⟩ := of_check (r := oneRun movedMint)
    (p := fun w => isDone w.loader && w.listening &&
      decide (mintsShown w (mintRequest Toy.prog) = some [(Toy.alice.bytes, Toy.prog2.bytes)]) &&
      decide (mintsShown w (mintRequest Toy.prog2) = some [])) (by decide +kernel)
  simp only [Bool.and_eq_true, decide_eq_true_eq] at hw
  exact ⟨w, hr, serves_of hw.1.1.1, hw.1.1.2, hw.1.2, hw.2⟩

end LAM.Props
