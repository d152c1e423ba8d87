import Verif.Lemmas.ProgramList
import Verif.Props.ProgramQuery
/-!
# C118: what the simulator program lists about unfinalized slots
-/
namespace LAM.Props
open Spec Token Sim ProcStore
open TokenStore (TOp)

/-- The request asks for the token accounts of `owner` at the commitment `c`, without context; a mint it asks for is in the
archive. -/
structure OwnerRequestAt {U : Type} (X : Codecs) (E : Rpc.Externals U) (ws : List (Nat × Written)) (key : Bytes)
    (config : Option Rpc.ProgramConfig) (program : Pubkey) (l : List AccountFilterType) (owner : Pubkey) (c : Commitment) : Prop where
  parsed : E.parse key = some program
  token : program = Spl.tokenId ∨ program = Spl.token2022Id
  filters : FiltersFor X config (some l)
  asks : AsksOwner program l owner
  mint : ∀ m, AsksMint program l m → ArchiveMint ws m
  plain : ¬ WantsContext config
  level : commitmentFor (config.map (·.account)) = c

/-- **C118**, as claimed: once the archive is loaded, and while the stream is followed and in order, `getProgramAccounts` for the
token accounts of an owner at the confirmed or processed commitment lists, once each, the accounts of the program that pass the
filters as of the slot of that commitment, as they are then, and no others. The conditions under which `getAccountInfo` shows
these states (C109, C110) are taken for granted. -/
def C118_statement : Prop :=
  ∀ (U : Type) (X : Codecs) (E : Rpc.Externals U) (L : Lz4Block) (decode : Bytes → Option Manifest) (items : List Item)
    (ws : List (Nat × Written)) (evs : List Event) (w : Main) (σ : Orders) (o : SnapshotOrders) (key : Bytes)
    (config : Option Rpc.ProgramConfig) (program owner : Pubkey) (l : List AccountFilterType) (c : Commitment),
    WellFormedArchive decode items ws → Consistent (tokenOwned (ws.map (·.2))) → Plain evs → StreamRespects X ws evs →
    Event.hangUp ∉ evs → ws.length + evs.length < 2 ^ 31 → LoadsFirst X decode true evs (Main.start true items) →
    (∀ σ info c, TOp.slot σ info c ∈ streamed evs → info.parent < info.slot) →
    (Main.start true items).run X decode evs = .ok w → w.serves → (∀ p q, E.text p = E.text q → p = q) → c ≠ .finalized →
    OwnerRequestAt X E ws key config program l owner c →
    ∃ shown, Rpc.getProgramAccounts X E (storageOf X L σ o w.store) key config = .ok (.ok (.noContext shown)) ∧
      ∀ par pk slot d, TokenKey ws evs pk → InOrder X par evs pk → Followed X par evs pk c →
        CurrentAt ws evs par pk (tipOf (streamed evs) c) slot d →
        (∀ bs, d = some (program, bs) → (∀ f ∈ l, Allows X f bs) →
          ∃ k ∈ shown, EntryFor X E (config.map (·.account)) pk program bs k) ∧
        (∀ k ∈ shown, k.pubkey = E.text pk → ∃ bs, d = some (program, bs) ∧ (∀ f ∈ l, Allows X f bs) ∧
          EntryFor X E (config.map (·.account)) pk program bs k) ∧
        ∀ (i j : Nat) k k', shown[i]? = some k → shown[j]? = some k' → k.pubkey = E.text pk → k'.pubkey = E.text pk → i = j

/-- The answers of two lists of which the second leaves out what shows nothing. -/
theorem forall₂_kept {α β : Type} {R : α → Option β → Prop} {l : List α} {ys : List (Option β)} (h : List.Forall₂ R l ys) {b : β}
    (hb : b ∈ ys.filterMap id) : ∃ a ∈ l, R a (some b) := by
  obtain ⟨y, h1, h2⟩ := List.mem_filterMap.1 hb
  cases y with
  | none => cases h2
  | some x => cases h2; exact forall₂_right h h1

theorem kept_count {α β : Type} {R : α → Option β → Prop} {p : α → Bool} {q : β → Bool} (hpq : ∀ a b, R a (some b) → q b = p a)
    {l : List α} {ys : List (Option β)} (h : List.Forall₂ R l ys) : (ys.filterMap id).countP q ≤ l.countP p := by
  induction h with
  | nil => simp
  | @cons a y l ys h _ ih =>
    cases y with
    | none =>
      rw [List.filterMap_cons_none rfl, List.countP_cons]
      omega
    | some b =>
      rw [show List.filterMap id (some b :: ys) = b :: List.filterMap id ys from rfl, List.countP_cons, List.countP_cons, hpq a b h]
      omega

theorem newest_from {ops : List TOp} {par : Nat → Nat} {pk : Pubkey} {t k : Nat} {a : AccountData} (h : NewestTrue ops par pk t a k) :
    ∃ c, TOp.update a c ∈ ops ∧ a.pubkey = pk := by
  obtain ⟨l1, l2, e, -⟩ := newest_best h
  have hm : a ∈ submittedAt ops pk k := by rw [e]; simp
  simp only [submittedAt, List.mem_filterMap] at hm
  obtain ⟨o, ho, hm⟩ := hm
  cases o with
  | update b c =>
    simp only at hm
    split at hm
    · rename_i hb
      cases hm
      exact ⟨c, ho, hb.2.1⟩
    · cases hm
  | init b => cases hm
  | slot => cases hm

/-- The owner of the data to be shown is the one kept. -/
theorem kept_current {ws : List (Nat × Written)} {evs : List Event} {par : Nat → Nat} {pk own p : Pubkey} {bs : Bytes} {sa : Spl.Account}
    (ho : OwnerKept ws evs pk own) (hd : Current ws evs par pk (some (p, bs))) (hl : AccountLayout bs sa) : sa.owner = own := by
  cases hd with
  | «open» h1 h2 h3 =>
    obtain ⟨c, hm, hpk⟩ := newest_from h1
    exact ho.stream _ c hm hpk _ _ h3 hl
  | archive h1 h2 h3 =>
    obtain ⟨l, l', e, -⟩ := h2
    exact ho.archive _ (by rw [e]; simp) h3 _ hl

theorem kept_currentAt {ws : List (Nat × Written)} {evs : List Event} {par : Nat → Nat} {pk own p : Pubkey} {bs : Bytes} {sa : Spl.Account}
    {tip slot : Nat} (ho : OwnerKept ws evs pk own) (hd : CurrentAt ws evs par pk tip slot (some (p, bs))) (hl : AccountLayout bs sa) :
    sa.owner = own := by
  cases hd with
  | «open» h1 h2 h3 h4 =>
    obtain ⟨c, hm, hpk⟩ := newest_from h1
    exact ho.stream _ c hm hpk _ _ h4 hl
  | final h1 h2 => exact kept_current ho h2 hl

/-- **C118**, the part that holds: of the accounts whose owner never changes, those that have the owner (and the mint) asked for
as of the last finalized slot are listed in their state as of the commitment's slot, unless they are closed then; whatever is
listed is in this state, had the owner (and the mint) asked for as of the last finalized slot, and is listed once. What is
missing: accounts opened since the last finalized slot, and all that is missing in C111. -/
theorem C118_partial {U : Type} (X : Codecs) (E : Rpc.Externals U) (L : Lz4Block) (decode : Bytes → Option Manifest)
    (items : List Item) (ws : List (Nat × Written)) (evs : List Event) (w : Main) (σ : Orders) (o : SnapshotOrders) (key : Bytes)
    (config : Option Rpc.ProgramConfig) (program owner : Pubkey) (l : List AccountFilterType) (c : Commitment)
    (ha : WellFormedArchive decode items ws) (hc : Consistent (tokenOwned (ws.map (·.2)))) (hp : Plain evs)
    (hsr : StreamRespects X ws evs) (hh : Event.hangUp ∉ evs) (hn : ws.length + evs.length < 2 ^ 31)
    (hf : LoadsFirst X decode true evs (Main.start true items))
    (hold : ∀ σ info c, TOp.slot σ info c ∈ streamed evs → info.parent < info.slot)
    (hr : (Main.start true items).run X decode evs = .ok w)
    (hs : w.serves) (ht : ∀ p q, E.text p = E.text q → p = q) (hcf : c ≠ .finalized)
    (hq : OwnerRequestAt X E ws key config program l owner c) :
    ∃ shown, Rpc.getProgramAccounts X E (storageOf X L σ o w.store) key config = .ok (.ok (.noContext shown)) ∧
      ∀ par pk slot d df, TokenKey ws evs pk → InOrder X par evs pk → Followed X par evs pk c →
        Current ws evs par pk df → CurrentAt ws evs par pk (tipOf (streamed evs) c) slot d →
        (∀ own p bs pf bf, OwnerKept ws evs pk own → df = some (pf, bf) → (∀ f ∈ l, Allows X f bf) → d = some (p, bs) →
          ∃ k ∈ shown, EntryFor X E (config.map (·.account)) pk p bs k) ∧
        (∀ k ∈ shown, k.pubkey = E.text pk → ∃ p bs, d = some (p, bs) ∧ EntryFor X E (config.map (·.account)) pk p bs k ∧
          (∃ pf bf, df = some (pf, bf) ∧ Allows X (.memcmp ⟨32, .bytes owner.bytes⟩) bf ∧
            ∀ m, AsksMint program l m → Allows X (.memcmp ⟨0, .bytes m.bytes⟩) bf) ∧
          ∀ own, OwnerKept ws evs pk own → Allows X (.memcmp ⟨32, .bytes owner.bytes⟩) bs) ∧
        ∀ (i j : Nat) k k', shown[i]? = some k → shown[j]? = some k' → k.pubkey = E.text pk → k'.pubkey = E.text pk → i = j := by
  obtain ⟨hl, ix, n, slots, orig, rdy, inv⟩ := served_ready ha hc hp hsr hh (by omega) hf hr hs
  obtain ⟨ops, i1, i2, i3⟩ := served_feed ha hp hr hs hl
  have hlen := feed_length i1 hn
  obtain ⟨e1, e2⟩ := C53_reads_end_partial X ops w.store (fun σ info c hm => by
    rcases (interleaved_mem i1 _).1 hm with h | h
    · obtain ⟨v, -, h⟩ := archived_kind h
      cases h
    · exact hold σ info c h) i2
  obtain ⟨mint, o1, o2⟩ := ownerMint_of hq.asks
  have hw : ∀ l', some l = some l' → (∀ f ∈ l', ∀ d, ∃ b, f.allows X d = .ok b) ∧
      ∀ ow m, ownerMintFilter program l' = (some ow, some m) → w.store.table.index.find m ≠ none := by
    rintro l' e
    cases e
    refine ⟨fun f hf d => ?_, fun ow m e => ?_⟩
    · obtain ⟨b, hb, -⟩ := allows_ok X f d (filters_wellFormed hq.filters l rfl f hf)
      exact ⟨b, hb⟩
    · rw [o1] at e
      cases e
      rw [rdy.known m (hq.mint m ((o2 m).1 rfl))]
      simp
  have hgpa : ∃ rs, w.store.getProgramAccounts X σ program (some l) .finalized = .ok (.ok rs) := by
    obtain ⟨r, hr⟩ := gpaFinalized_ready inv.fin rdy σ program (some l) hw
    cases r with
    | ok rs =>
      refine ⟨rs, ?_⟩
      unfold TokenStore.getProgramAccounts
      rw [if_neg (by rcases hq.token with h | h <;> simp [h]), hr]
      simp
    | error e =>
      exfalso
      unfold TokenStore.gpaFinalized at hr
      simp only [o1, Run.bind_eq_ok] at hr
      obtain ⟨mi, -, hr⟩ := hr
      split at hr
      · simp only [Run.bind_eq_ok] at hr
        obtain ⟨_, -, _, -, hr⟩ := hr
        cases hr
      · cases hr
  obtain ⟨fs, hgpa⟩ := hgpa
  obtain ⟨rs, hgc⟩ := query_answered hgpa (getProgramAccounts_ready (X := X) inv rdy σ program (some l) c hw) (e2 σ program (some l) c)
  obtain ⟨ys, y1, y2⟩ := C69_per_account X ops w.store σ program (some l) c fs rs hlen i2 hcf hgpa hgc (fun f _ => e1 f.pubkey c)
  have ykey : ∀ f r, ShownFor w.store c f (some r) → r.pubkey = f.pubkey := by
    rintro f r (⟨h, -⟩ | h)
    · cases h; rfl
    · exact read_pubkey (r := { r with wv := 0 }) inv h
  obtain ⟨shown, s1, s2⟩ := list_shown (S := storageOf X L σ o w.store) hq.parsed hq.filters hq.plain
    (by rw [hq.level]; exact hgc) (fun a h => (raw_query hgc a h).readable)
  refine ⟨shown, s1, ?_⟩
  intro par pk slot d df hk hio hfo hdf hd
  have hlo : LoadedFirst pk ops := i3 (fun pre σ slot parent level post e h => hf pre σ slot parent level post e (.inl (by simpa using h))) pk
  obtain ⟨f1, f2⟩ := feed_read hc hsr hk hio i1 hlen i2 (fun _ _ => hlo) hdf
  obtain ⟨g1, g2⟩ := followed_read hc hsr hk hio i1 hlen i2 hlo hcf hfo hd
  have htw : NoTwinClosed X pk ops := feed_noTwin hc hk i1
  have hon := feed_only hc hsr hk i1
  obtain ⟨j1, j2, -⟩ := stream_only ops hlen hon i2
  refine ⟨?_, ?_, ?_⟩
  · intro own p bs pf bf hown hdf' hall hd'
    obtain ⟨rf, bf', sf, sf', k1, k2, -, k4, k5, k6, k7, k8⟩ := f2 pf bf hdf'
    have hmem := C69_owner_partial X ops w.store own σ program owner pk l fs rf bf' hlen i2 (owner_fixed hc hsr hown i1) hq.asks hgpa
      j1 j2 k1 k5
      ((allows_owner k7 _).2 (by rw [← k8.owner]; exact (allows_owner k6 _).1 (hall _ (lastIs_filter hq.asks.2))))
      (fun m hm => (allows_mint k7 _).2 (by rw [← k8.mint]; exact (allows_mint k6 _).1 (hall _ (lastIs_filter hm.2))))
    obtain ⟨y, hy, hsh⟩ := forall₂_left y1 hmem
    obtain ⟨r, bs', sa, sa', m1, m2, -, m4, m5, m6, m7, m8⟩ := g2 p bs hd'
    have : ∃ r', y = some r' ∧ r'.pubkey = pk ∧ r'.account = r.account := by
      rcases hsh with ⟨h1, h2⟩ | h
      · rw [k2, m1, k1] at h2
        cases h2
        exact ⟨rf, h1, k2, rfl⟩
      · rw [k2, m1] at h
        cases y with
        | none => cases h
        | some r' =>
          simp only [Option.map_some, Run.ok.injEq, Option.some.injEq] at h
          subst h
          exact ⟨r', rfl, m2, rfl⟩
    obtain ⟨r', rfl, n1, n2⟩ := this
    have hr' : r' ∈ rs := by rw [y2]; exact List.mem_filterMap.2 ⟨_, hy, rfl⟩
    obtain ⟨k, q1, q2, q3⟩ := forall₂_left s2 hr'
    exact ⟨k, q1, by rw [q2, n1], r', bs', sa, sa', q3, n1, by rw [n2, m4], by rw [n2]; exact m5.1, m6, m7, m8⟩
  · intro k hk1 hkp
    obtain ⟨a, a1, a2, a3⟩ := forall₂_right s2 hk1
    have apk : a.pubkey = pk := ht _ _ (by rw [← a2, hkp])
    obtain ⟨f, hff, hsh⟩ := forall₂_kept y1 (by rw [← y2]; exact a1)
    have fpk : f.pubkey = pk := by rw [← apk]; exact (ykey f a hsh).symm
    have hread := listed_read hlen htw hon i2 hq.asks hgpa hff fpk
    have hat : ∃ r, w.store.getAccount pk c = .ok (some r) ∧ r.account = a.account := by
      rcases hsh with ⟨h1, h2⟩ | h
      · cases h1
        rw [fpk, hread] at h2
        exact ⟨_, h2, rfl⟩
      · rw [fpk] at h
        exact ⟨_, h, rfl⟩
    obtain ⟨r, hr1, hr2⟩ := hat
    cases df with
    | none => rw [f1 rfl] at hread; cases hread
    | some q =>
    obtain ⟨pf, bf⟩ := q
    cases d with
    | none => rw [g1 rfl] at hr1; cases hr1
    | some q =>
    obtain ⟨p, bs⟩ := q
    obtain ⟨rf, bf', sf, sf', k1, k2, -, k4, k5, k6, k7, k8⟩ := f2 pf bf rfl
    obtain ⟨r', bs', sa, sa', m1, m2, -, m4, m5, m6, m7, m8⟩ := g2 p bs rfl
    rw [hread] at k1
    cases k1
    rw [hr1] at m1
    cases m1
    obtain ⟨b2, u1, -, u2, u3⟩ := C57_owner_partial X ops w.store σ program owner l fs hlen i2 hq.asks hgpa f hff
    have : b2 = bf' := by have := u1.1; rw [k5.1] at this; cases this; rfl
    subst this
    have hof : sf.owner = owner := by rw [k8.owner]; exact (allows_owner k7 _).1 u2
    refine ⟨p, bs, rfl, ⟨hkp, a, bs', sa, sa', a3, apk, by rw [← hr2, m4], by rw [← hr2]; exact m5.1, m6, m7, m8⟩,
      ⟨pf, bf, rfl, (allows_owner k6 _).2 hof, fun m hm => (allows_mint k6 _).2 (by rw [k8.mint]; exact (allows_mint k7 _).1 (u3 m hm))⟩,
      fun own hown => (allows_owner m6 _).2 ?_⟩
    rw [kept_currentAt hown hd m6, ← kept_current hown hdf k6, hof]
  · intro i j k k' h1 h2 h3 h4
    refine forall₂_once (q := fun k => k.pubkey = E.text pk) (p := fun r : AccountData => decide (r.pubkey = pk))
      (fun a b hab hb => by simp only [decide_eq_true_eq]; exact ht _ _ (by rw [← hab.1, hb])) s2 ?_ h1 h2 h3 h4
    rw [y2]
    exact Nat.le_trans (kept_count (p := fun r : AccountData => decide (r.pubkey = pk))
      (fun f r h => by rw [ykey f r h]) y1) (listed_once hlen htw i2 hq.asks hgpa)

/-! ### Samples: `alice` changes and `bob` is opened at slot 4, which is confirmed -/

def openedBob : List Event := afterLoading [aliceAt 4, bobAt 4, confirms 4 3]

theorem opened_sampled : Sampled before openedBob :=
  sampled_loaded (sampled_cons (.inr (.inl ⟨4, by decide, .inl rfl⟩)) (sampled_cons (.inr (.inl ⟨4, by decide, .inr rfl⟩))
    (sampled_cons (.inr (.inr ⟨4, by decide, by decide, rfl⟩)) sampled_nil)))

theorem opened_first (all : Bool) : LoadsFirst Toy.codecs oneDecode all openedBob (Main.start true (archiveOf oneFile)) := by
  intro pre σ slot parent level post e _
  have hlen : pre.length < 8 := by
    have : openedBob.length = 8 := rfl
    rw [e] at this; simp at this; omega
  have hget : openedBob[pre.length]? = some (.message σ (.slot slot parent level)) := by rw [e]; simp
  have hpre : pre = openedBob.take pre.length := by rw [e]; simp
  have hn : pre.length = 7 := by
    by_contra hne
    have hn : pre.length = 0 ∨ pre.length = 1 ∨ pre.length = 2 ∨ pre.length = 3 ∨ pre.length = 4 ∨ pre.length = 5 ∨ pre.length = 6 := by omega
    rcases hn with h | h | h | h | h | h | h <;>
      (rw [h] at hget; simp [openedBob, afterLoading, aliceAt, bobAt, messageOf] at hget)
  rw [hpre, hn]
  obtain ⟨w, hr, hw⟩ := of_check (r := oneRun (openedBob.take 7)) (p := fun w => isDone w.loader) (by decide +kernel)
  exact ⟨w, hr, serves_of hw⟩

theorem opened_older : ∀ σ info c, TOp.slot σ info c ∈ streamed openedBob → info.parent < info.slot := by
  intro σ info c hm
  rcases sampled_stream opened_sampled hm with ⟨k, -, h | h⟩ | ⟨k, -, hp, h⟩ <;> cases h
  exact hp

theorem opened_key {pk : Pubkey} (hpk : pk = Toy.alice ∨ pk = Toy.bob) : TokenKey oneAccounts openedBob pk := by
  refine ⟨?_, ?_, ?_⟩
  · intro w hw hp
    rw [one_owned] at hw
    simp only [List.mem_cons, List.not_mem_nil, or_false] at hw
    rcases hw with rfl | rfl
    · rcases hpk with rfl | rfl <;> exact absurd hp (by decide +kernel)
    · exact ⟨_, token_layout _ (by decide)⟩
  · intro a c hm _
    rcases sampled_stream opened_sampled hm with ⟨k, -, h | h⟩ | ⟨k, -, -, h⟩ <;> cases h
    · exact ⟨.inl rfl, .inr ⟨otherBytes, _, rfl, other_layout⟩⟩
    · exact ⟨.inl rfl, .inr ⟨splAccount.pack, _, rfl, spl_layout⟩⟩
  · intro a c hm _ _
    rcases sampled_stream opened_sampled hm with ⟨k, -, h | h⟩ | ⟨k, -, -, h⟩ <;> cases h
    · exact ⟨by simp [otherAcct, Toy.acct], .inl rfl⟩
    · exact ⟨by simp [tokenAcct, Toy.acct], .inl rfl⟩

theorem opened_order {pk : Pubkey} : InOrder Toy.codecs before openedBob pk :=
  have h := sampled_order before_le opened_sampled
  ⟨h.older, h.parents, h.onTime, fun pre σ info post e => absurd (by rw [e]; simp) (sampled_final opened_sampled σ info)⟩

theorem opened_confirmed : confirmedOf (streamed openedBob) = 4 := by decide +kernel

theorem opened_followed {pk : Pubkey} (hpk : pk = Toy.alice ∨ pk = Toy.bob) : Followed Toy.codecs before openedBob pk .confirmed := by
  refine ⟨?_, by simp, by simp⟩
  intro a k hk _ i i1 i2 i3
  have e1 := newest_top before_le hk (i := 4) (by rw [opened_confirmed]; exact .here)
    (by rcases hpk with rfl | rfl <;> decide +kernel)
  have e2 := ancestor_le before_le i1
  have e3 := ancestor_le before_le i2
  rw [opened_confirmed] at e2
  omega

theorem opened_final : lastFinal (streamed openedBob) = 0 := lastFinal_none (sampled_final opened_sampled)

/-- The token accounts of `bob`, confirmed. -/
def bobConfirmed : Option Rpc.ProgramConfig :=
  some ⟨some [.dataSize 165, .memcmp 32 (.bytes Toy.bob.bytes)], ⟨none, none, some .confirmed, none⟩, none⟩

theorem bob_confirmed : OwnerRequestAt Toy.codecs bytesExternals oneAccounts Spl.tokenId.bytes bobConfirmed Spl.tokenId byBob Toy.bob
    .confirmed := by
  obtain ⟨h1, h2⟩ := C71_recognised Spl.tokenId byBob
  refine ⟨by decide +kernel, .inl rfl, .cons rfl (.cons rfl .nil), (h1 _).1 (by decide +kernel), fun m hm => absurd ((h2 m).2 hm) ?_, ?_, rfl⟩
  · rw [show (ownerMintFilter Spl.tokenId byBob).2 = none by decide +kernel]; simp
  · rintro ⟨c, h, h'⟩
    cases h
    simp at h'

/-- C118 is false: `bob`'s account is opened at slot 4, which is confirmed, but it is not listed. -/
theorem C118_refuted : ¬ C118_statement := by
  intro h
  obtain ⟨w, hr, hw⟩ := of_check (r := oneRun openedBob)
    (p := fun w => isDone w.loader && decide (listShown w Spl.tokenId bobConfirmed = some [(Toy.alice.bytes, 99)])) (by decide +kernel)
  simp only [Bool.and_eq_true, decide_eq_true_eq] at hw
  obtain ⟨h1, h2⟩ := hw
  have hS := opened_sampled
  obtain ⟨shown, s1, s2⟩ := h Bytes Toy.codecs bytesExternals plainLz4 oneDecode (archiveOf oneFile) oneAccounts openedBob w plainOrders
    plainSnapshotOrders Spl.tokenId.bytes bobConfirmed Spl.tokenId Toy.bob byBob .confirmed one_ok one_consistent (sampled_plain hS)
    (sampled_respects hS) (by simp [openedBob, afterLoading, aliceAt, bobAt, confirms, messageOf]) (by decide) (opened_first true) opened_older
    hr (serves_of h1) text_injective (by decide) bob_confirmed
  have e : listAnswer w Spl.tokenId bobConfirmed = .ok (.ok (.noContext shown)) := s1
  rw [listShown, e] at h2
  simp only [Option.some.injEq] at h2
  have hnew : NewestTrue (streamed openedBob) before Toy.bob (confirmedOf (streamed openedBob)) (tokenAcct Toy.bob 4 1) 4 := by
    rw [opened_confirmed]
    exact .here ⟨[], [], by decide +kernel, by simp, by simp⟩
  obtain ⟨k, hk, hp, -⟩ := (s2 before Toy.bob 4 (some (Spl.tokenId, splAccount.pack)) (opened_key (.inr rfl)) opened_order
    (opened_followed (.inr rfl))
    (CurrentAt.open (a := tokenAcct Toy.bob 4 1) hnew (by rw [opened_final]; decide) (by simp [tokenAcct, Toy.acct]) rfl)).1 splAccount.pack rfl (by
      intro f hf
      simp only [byBob, List.mem_cons, List.not_mem_nil, or_false] at hf
      rcases hf with rfl | rfl
      · exact spl_layout.length
      · exact (allows_owner spl_layout _).2 rfl)
  have hm : (k.pubkey, leNat (field k.account 64 8)) ∈ shown.map (fun k => (k.pubkey, leNat (field k.account 64 8))) :=
    List.mem_map.2 ⟨k, hk, rfl⟩
  rw [h2, hp] at hm
  simp only [List.mem_singleton, Prod.mk.injEq] at hm
  exact absurd hm.1 (show bytesExternals.text Toy.bob ≠ Toy.alice.bytes by decide +kernel)

theorem opened_current : Current oneAccounts openedBob before Toy.alice (some (Spl.tokenId, splAccount.pack)) := by
  refine Current.archive (w := wToken Toy.alice 12) ?_ ⟨[wMint], [], one_owned, by simp⟩ rfl
  intro a k hk
  rw [opened_final] at hk
  have hz : ∀ t a k, NewestTrue (streamed openedBob) before Toy.alice t a k → t = 0 → k = 0 := by
    intro t a k h
    induction h with
    | here _ => exact id
    | up _ _ ih => rintro rfl; exact ih rfl
  obtain rfl := hz _ _ _ hk rfl
  exact newest_submitted hk (by decide +kernel)

/-- In the sample the 99 of `alice`, confirmed but not finalized, is listed. -/
example : ∃ w shown, oneRun openedBob = .ok w ∧ listAnswer w Spl.tokenId bobConfirmed = .ok (.ok (.noContext shown)) ∧
    ∃ k ∈ shown, EntryFor Toy.codecs bytesExternals (some ⟨none, none, some .confirmed, none⟩) Toy.alice Spl.tokenId otherBytes k := by
  obtain ⟨w, hr, hw⟩ := of_check (r := oneRun openedBob) (p := fun w => isDone w.loader) (by decide +kernel)
  have hS := opened_sampled
  obtain ⟨shown, s1, s2⟩ := C118_partial Toy.codecs bytesExternals plainLz4 oneDecode (archiveOf oneFile) oneAccounts openedBob w plainOrders
    plainSnapshotOrders Spl.tokenId.bytes bobConfirmed Spl.tokenId Toy.bob byBob .confirmed one_ok one_consistent (sampled_plain hS)
    (sampled_respects hS) (by simp [openedBob, afterLoading, aliceAt, bobAt, confirms, messageOf]) (by decide) (opened_first true) opened_older
    hr (serves_of hw) text_injective (by decide) bob_confirmed
  refine ⟨w, shown, hr, s1, ?_⟩
  have hnew : NewestTrue (streamed openedBob) before Toy.alice (confirmedOf (streamed openedBob)) (otherAcct 4 1) 4 := by
    rw [opened_confirmed]
    exact .here ⟨[], [], by decide +kernel, by simp, by simp⟩
  refine (s2 before Toy.alice 4 (some (Spl.tokenId, otherBytes)) _ (opened_key (.inl rfl)) opened_order (opened_followed (.inl rfl)) opened_current
    (CurrentAt.open (a := otherAcct 4 1) hnew (by rw [opened_final]; decide) (by simp [otherAcct, Toy.acct]) rfl)).1 Toy.bob _ otherBytes _ _
    ⟨?_, ?_⟩ rfl ?_ rfl
  · intro v hv hp sa hsa
    rw [one_owned] at hv
    simp only [List.mem_cons, List.not_mem_nil, or_false] at hv
    rcases hv with rfl | rfl
    · exact absurd hp (by decide +kernel)
    · obtain rfl := accountLayout_unique hsa (token_layout _ (by decide))
      rfl
  · intro a c hm _ bs sa hb hsa
    rcases sampled_stream hS hm with ⟨k, -, h | h⟩ | ⟨k, -, -, h⟩ <;> cases h
    · cases hb
      obtain rfl := accountLayout_unique hsa other_layout
      rfl
    · cases hb
      obtain rfl := accountLayout_unique hsa spl_layout
      rfl
  · intro f hf
    simp only [byBob, List.mem_cons, List.not_mem_nil, or_false] at hf
    rcases hf with rfl | rfl
    · exact spl_layout.length
    · exact (allows_owner spl_layout _).2 rfl

/-- What `getAccountInfo` shows for a key at the confirmed commitment: the owner and the amount. -/
def confirmedShown (w : Main) (pk : Pubkey) : Option (Bytes × Nat) :=
  match Rpc.getAccountInfo Toy.codecs bytesExternals (storageOf Toy.codecs plainLz4 plainOrders plainSnapshotOrders w.store) pk.bytes confirmedConfig with
  | .ok (.ok ⟨_, some bs⟩) => some (field bs 32 32, leNat (field bs 64 8))
  | _ => none

/-- **C118**. In the sample `getAccountInfo` shows `bob`'s account and that it belongs to `bob`. -/
theorem C118_opened_missed : ∃ w, oneRun openedBob = .ok w ∧ w.serves ∧ w.listening = true ∧
    confirmedShown w Toy.bob = some (Toy.bob.bytes, 12) ∧ listShown w Spl.tokenId bobConfirmed = some [(Toy.alice.bytes, 99)] := by
  obtain ⟨w, hr, hw⟩ := of_check (r := oneRun openedBob)
    (p := fun w => isDone w.loader && w.listening && decide (confirmedShown w Toy.bob = some (Toy.bob.bytes, 12)) &&
      decide (listShown w Spl.tokenId bobConfirmed = some [(Toy.alice.bytes, 99)])) (by decide +kernel)
  simp only [Bool.and_eq_true, decide_eq_true_eq] at hw
  exact ⟨w, hr, serves_of hw.1.1.1, hw.1.1.2, hw.1.2, hw.2⟩

/-- `alice`'s account is handed to `prog2` at slot 4, which is confirmed. -/
def handedConfirmed : List Event :=
  afterLoading [messageOf (Toy.acct Toy.alice Spl.tokenId 7 4 1 handedBytes) handedBytes, confirms 4 3]

/-- **C118**. An account handed over since the last finalized slot is listed for its former owner, as an account of the new one. -/
theorem C118_former_owner : ∃ w, oneRun handedConfirmed = .ok w ∧ w.serves ∧ w.listening = true ∧
    confirmedShown w Toy.alice = some (Toy.prog2.bytes, 12) ∧
    ∃ k, listAnswer w Spl.tokenId bobConfirmed = .ok (.ok (.noContext [k])) ∧ k.pubkey = Toy.alice.bytes ∧
      field k.account 32 32 = Toy.prog2.bytes := by
  obtain ⟨w, hr, hw⟩ := of_check (r := oneRun handedConfirmed)
    (p := fun w => isDone w.loader && w.listening && decide (confirmedShown w Toy.alice = some (Toy.prog2.bytes, 12)) &&
      match listAnswer w Spl.tokenId bobConfirmed with
      | .ok (.ok (.noContext [k])) => decide (k.pubkey = Toy.alice.bytes ∧ field k.account 32 32 = Toy.prog2.bytes)
      | _ => false) (by decide +kernel)
  simp only [Bool.and_eq_true, decide_eq_true_eq] at hw
  obtain ⟨⟨⟨h1, h2⟩, h3⟩, h4⟩ := hw
  refine ⟨w, hr, serves_of h1, h2, h3, ?_⟩
  split at h4
  · rename_i k hk
    simp only [decide_eq_true_eq] at h4
    exact ⟨k, hk, h4⟩
  · cases h4

end LAM.Props
