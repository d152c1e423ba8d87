import Verif.Spec.TokenSnapshot
import Verif.Lemmas.Bincode
import Verif.Lemmas.TokenStoreRead
import Verif.Props.TokenStorage
/-!
# Lemmas about token snapshots
-/
namespace LAM.Token
open Spec Bincode

/-! ## The encoding -/

theorem exact_option {enc : α → Bytes} {d : Decoder α} {p : α → Prop} (h : Exact enc d p) :
    Exact (encOption enc) (decOption d) (fun o => ∀ a, o = some a → p a) := by
  intro bs o rest
  simp only [decOption, Option.bind_eq_bind, Option.bind_eq_some_iff, Prod.exists]
  constructor
  · rintro ⟨b, r, hb, h1⟩
    obtain ⟨-, rfl⟩ := (exact_byte _ _ _).1 hb
    split at h1
    · rename_i hb; subst hb
      simp at h1
      obtain ⟨rfl, rfl⟩ := h1
      simp [encOption]
    · split at h1
      · rename_i hb; subst hb
        simp only [Option.bind_eq_some_iff, Prod.exists, Option.pure_def, Option.some.injEq, Prod.mk.injEq] at h1
        obtain ⟨a, r', ha, rfl, rfl⟩ := h1
        obtain ⟨pa, rfl⟩ := (h _ _ _).1 ha
        refine ⟨?_, by simp [encOption]⟩
        rintro x hx; cases hx; exact pa
      · simp at h1
  · rintro ⟨hp, rfl⟩
    cases o with
    | none => exact ⟨0, rest, by simp [encOption, decByte], by simp⟩
    | some a =>
      refine ⟨1, enc a ++ rest, by simp [encOption, decByte], ?_⟩
      rw [if_neg (by decide), if_pos rfl, h.roundtrip (hp a rfl)]
      rfl

theorem exact_program : Exact encProgram decProgram (fun _ => True) := by
  refine (exact_map (exact_nat 4) _ (fun p : Program => match p with | .tokenProgram => 0 | .token2022Program => 1) ?_).mono ?_ ?_
  · intro a b _
    cases b <;> simp <;> grind
  · intro p; cases p <;> rfl
  · intro p; cases p <;> simp

theorem exact_mint : Exact encMint decMint MintFits := by
  refine (exact_map (exact_pair exact_program (exact_pair exact_pubkey (exact_pair exact_u64 (exact_pair exact_u64
    (exact_pair exact_byte (exact_pair exact_bool (exact_pair (exact_option exact_pubkey)
      (exact_pair (exact_option exact_pubkey) (exact_option exact_bytes))))))))) _
    (fun m : MintAccount => (m.program, m.pubkey, m.lamports, m.supply, m.decimals, m.isInitialized, m.mintAuthority,
      m.freezeAuthority, m.additionalData)) ?_).mono ?_ ?_
  · rintro ⟨p, k, l, s, d, i, a, f, x⟩ ⟨p', k', l', s', d', i', a', f', x'⟩ _
    simp
  · intro m; rfl
  · rintro ⟨p, k, l, s, d, i, a, f, x⟩
    constructor
    · simp only [true_and, and_true]
      rintro ⟨h1, h2, -, -, h3⟩
      exact ⟨h1, h2, h3⟩
    · rintro ⟨h1, h2, h3⟩
      simpa using ⟨h1, h2, h3⟩

theorem exact_multisig : Exact encMultiSig decMultiSig MultiSigFits := by
  have hv := exact_vec exact_pubkey
  rw [pow_eq] at hv
  refine (exact_map (exact_pair exact_program (exact_pair exact_pubkey (exact_pair exact_u64 (exact_pair exact_byte
    (exact_pair exact_byte (exact_pair exact_bool hv)))))) _
    (fun m : MultiSig => (m.program, m.pubkey, m.lamports, m.m, m.n, m.isInitialized, m.signers)) ?_).mono ?_ ?_
  · rintro ⟨p, k, l, s, d, i, a⟩ ⟨p', k', l', s', d', i', a'⟩ _
    simp
  · intro m; rfl
  · rintro ⟨p, k, l, s, d, i, a⟩
    constructor
    · simp only [true_and, and_true]
      rintro ⟨h1, h2, -⟩
      exact ⟨h1, h2⟩
    · rintro ⟨h1, h2⟩
      simpa using ⟨h1, h2⟩

theorem exact_snapshot : Exact encSnapshot decSnapshot SnapshotFits := by
  have h1 := exact_vec (exact_pair (exact_nat 4) exact_mint)
  have h2 := exact_vec exact_multisig
  have h3 := exact_vec exact_bytes
  rw [pow_eq] at h1 h2 h3
  refine (exact_map (exact_pair h1 (exact_pair h2 h3)) _
    (fun x : TokenSnapshot => (x.mints, x.multisigs, x.tokens)) ?_).mono ?_ ?_
  · rintro ⟨p, k, l⟩ ⟨p', k', l'⟩ _
    simp
  · intro m; rfl
  · rintro ⟨m, s, t⟩
    have he : (256 : Nat) ^ 4 = 2 ^ 32 := by decide
    constructor
    · rintro ⟨⟨⟨a1, a2⟩, ⟨b1, b2⟩, c1, c2⟩, -⟩
      exact ⟨a1, fun e he' => ⟨he ▸ (a2 e he').1, (a2 e he').2⟩, b1, b2, c1, c2⟩
    · rintro ⟨a1, a2, b1, b2, c1, c2⟩
      exact ⟨⟨⟨a1, fun e he' => ⟨he ▸ (a2 e he').1, (a2 e he').2⟩⟩, ⟨b1, b2⟩, c1, c2⟩, rfl⟩

theorem decSnapshot_enc {x : TokenSnapshot} (h : SnapshotFits x) : (decSnapshot (encSnapshot x)).map (·.1) = some x := by
  have := exact_snapshot.roundtrip h []
  rw [List.append_nil] at this
  rw [this]; rfl

/-! ## Loading -/

open TokenStore

theorem loadMultisigs_other (l : List MultiSig) (s : TokenStore) :
    ∃ M, loadMultisigs l s = { s with multisigs := M } ∧
      (∀ pk m, M.find pk = some m → m ∈ l ∧ m.pubkey = pk ∨ s.multisigs.find pk = some m) ∧
      (∀ pk, (∀ m ∈ l, m.pubkey ≠ pk) → M.find pk = s.multisigs.find pk) ∧
      (∀ pk m0, m0 ∈ l → m0.pubkey = pk → ∃ m ∈ l, m.pubkey = pk ∧ M.find pk = some m) := by
  induction l generalizing s with
  | nil => exact ⟨s.multisigs, rfl, fun _ _ h => .inr h, fun _ _ => rfl, by simp⟩
  | cons a l ih =>
    obtain ⟨M, h1, h2, h3, h4⟩ := ih { s with multisigs := s.multisigs.insert a.pubkey a }
    refine ⟨M, by rw [loadMultisigs, h1], ?_, ?_, ?_⟩
    · intro pk m hm
      rcases h2 pk m hm with ⟨h, e⟩ | h
      · exact .inl ⟨by simp [h], e⟩
      · simp only [AMap.find_insert] at h
        split at h
        · rename_i e; cases h; exact .inl ⟨by simp, e⟩
        · exact .inr h
    · intro pk hpk
      rw [h3 pk (fun m hm => hpk m (by simp [hm]))]
      simp only [AMap.find_insert]
      rw [if_neg (hpk a (by simp))]
    · intro pk m0 hm0 hk
      by_cases hex : ∃ m ∈ l, m.pubkey = pk
      · obtain ⟨m, hm, e⟩ := hex
        obtain ⟨m', hm', e', hf⟩ := h4 pk m hm e
        exact ⟨m', by simp [hm'], e', hf⟩
      · have hno : ∀ m ∈ l, m.pubkey ≠ pk := fun m hm e => hex ⟨m, hm, e⟩
        rcases List.mem_cons.1 hm0 with rfl | hm0
        · refine ⟨m0, by simp, hk, ?_⟩
          rw [h3 pk hno]
          simp [AMap.find_insert, hk]
        · exact absurd hk (hno m0 hm0)

/-- Loading unknown mints numbers them one after the other. -/
theorem loadMints_fresh (l : List (Nat × MintAccount)) : ∀ (mapping : AMap Nat Nat) (s : TokenStore),
    (∀ e ∈ l, s.table.index.find e.2.pubkey = none) →
    s.table.counter + l.length < 2 ^ 32 →
    ∃ map' mints', loadMints l mapping s = (map', { s with mints := mints', table := ⟨s.table.index, s.table.counter + l.length⟩ }) ∧
      (∀ j, j < s.table.counter → mints'.find j = s.mints.find j) ∧
      (∀ i, (∀ e ∈ l, e.1 ≠ i) → map'.find i = mapping.find i) ∧
      ((l.map (·.1)).Nodup → ∀ e ∈ l, ∃ j, map'.find e.1 = some j ∧ mints'.find j = some e.2) ∧
      (∀ i j, map'.find i = some j → mapping.find i = some j ∨ j < s.table.counter + l.length) := by
  induction l with
  | nil =>
    intro mapping s h1 _
    exact ⟨mapping, s.mints, rfl, fun _ _ => rfl, fun _ _ => rfl, by simp, fun _ _ h => .inl h⟩
  | cons a l ih =>
    intro mapping s h1 h2
    obtain ⟨i, m⟩ := a
    simp only [List.length_cons] at h2
    have hw : wrap32 (s.table.counter + 1) = s.table.counter + 1 := Nat.mod_eq_of_lt (by omega)
    obtain ⟨map', mints', e1, e2, e3, e4, e5⟩ := ih (mapping.insert i s.table.counter)
      { s with
        table := ⟨s.table.index, wrap32 (s.table.counter + 1)⟩
        mints := s.mints.insert s.table.counter m } (fun e he => h1 e (by simp [he])) (by simp only [hw]; omega)
    refine ⟨map', mints', ?_, ?_, ?_, ?_, ?_⟩
    · have hn : s.table.index.find m.pubkey = none := h1 (i, m) (by simp)
      have hc : s.table.counter + 1 + l.length = s.table.counter + (l.length + 1) := by omega
      simp only [loadMints, hn]
      rw [e1]
      simp only [hw, List.length_cons, hc]
    · intro j hj
      rw [e2 j (by simp only [hw]; omega)]
      simp only [AMap.find_insert]
      rw [if_neg (by omega)]
    · intro k hk
      rw [e3 k (fun e he => hk e (by simp [he]))]
      simp only [AMap.find_insert]
      rw [if_neg (hk (i, m) (by simp))]
    · intro hnd e he
      simp only [List.map_cons, List.nodup_cons] at hnd
      rcases List.mem_cons.1 he with rfl | he
      · refine ⟨s.table.counter, ?_, ?_⟩
        · rw [e3 i (fun e he e' => hnd.1 (e' ▸ List.mem_map_of_mem he))]
          simp [AMap.find_insert]
        · rw [e2 _ (by simp only [hw]; omega)]
          simp [AMap.find_insert]
      · exact e4 hnd.2 e he
    · intro k j hj
      simp only [hw, List.length_cons] at e5 ⊢
      rcases e5 k j hj with h | h
      · simp only [AMap.find_insert] at h
        split at h
        · cases h; right; omega
        · exact .inl h
      · right; omega

/-- The account with the new mint index. -/
def remap (mapping : AMap Nat Nat) (t : TokenAccount) : TokenAccount := { t with mint := (mapping.find t.mint).getD 0 }

theorem loadTokens_run {mapping : AMap Nat Nat} (ts : List TokenAccount) : ∀ (s : TokenStore) (tk : TokenStorage),
    (∀ t ∈ ts, TokenFits t ∧ (mapping.find t.mint).isSome) →
    TokenStorage.run (ts.map (fun t => .save (remap mapping t))) s.tokens = .ok tk →
    ∃ bo bm, loadTokens mapping (ts.map TokenAccount.toBytes) s = .ok { s with tokens := tk, byOwner := bo, byMint := bm } := by
  induction ts with
  | nil =>
    intro s tk _ hr
    simp [TokenStorage.run] at hr
    subst hr
    exact ⟨_, _, rfl⟩
  | cons t ts ih =>
    intro s tk h hr
    obtain ⟨hf, hm⟩ := h t (by simp)
    obtain ⟨j, hj⟩ := Option.isSome_iff_exists.1 hm
    have hrm : ({ t with mint := j } : TokenAccount) = remap mapping t := by simp [remap, hj]
    simp only [List.map_cons, TokenStorage.run, TokenStorage.step] at hr
    obtain ⟨tk1, hsv, hr⟩ := Run.bind_eq_ok.1 hr
    obtain ⟨⟨⟨k, added⟩, tk1'⟩, hs, hs'⟩ := Run.bind_eq_ok.1 hsv
    simp at hs'; subst hs'
    simp only [List.map_cons, loadTokens, fromBytes_toBytes hf, Run.ok_bind, hj, Run.unwrap_some, hrm]
    rw [hs]
    simp only [Run.ok_bind]
    cases added with
    | true =>
      obtain ⟨bo, bm, e⟩ := ih { s with
        tokens := tk1'
        byOwner := push s.byOwner (prefix4 t.owner) k
        byMint := push s.byMint j k } tk (fun t ht => h t (by simp [ht])) hr
      exact ⟨bo, bm, e⟩
    | false =>
      obtain ⟨bo, bm, e⟩ := ih { s with tokens := tk1' } tk (fun t ht => h t (by simp [ht])) hr
      exact ⟨bo, bm, e⟩

/-- Loading token accounts leaves the others as they are. -/
theorem loadTokens_frame {mapping : AMap Nat Nat} (hmap : ∀ i j, mapping.find i = some j → j < 2 ^ 32) (l : List Bytes) :
    ∀ {s s' : TokenStore} {slots : List TokenAccount}, Holds s.tokens slots → slots.length + l.length < 2 ^ 32 →
    loadTokens mapping l s = .ok s' → ∃ slots', Holds s'.tokens slots' ∧ s'.mints = s.mints ∧ s'.table = s.table ∧
      s'.multisigs = s.multisigs ∧ s'.finalizedSlot = s.finalizedSlot ∧
      ∀ pk, (∀ b ∈ l, ∀ t, TokenAccount.fromBytes b = .ok t → t.pubkey ≠ pk) → view s'.tokens slots' pk = view s.tokens slots pk := by
  induction l with
  | nil =>
    intro s s' slots h _ hr
    simp [loadTokens] at hr
    subst hr
    exact ⟨slots, h, rfl, rfl, rfl, rfl, fun _ _ => rfl⟩
  | cons b l ih =>
    intro s s' slots h hl hr
    simp only [List.length_cons] at hl
    simp only [loadTokens] at hr
    obtain ⟨t, ht, hr⟩ := Run.bind_eq_ok.1 hr
    obtain ⟨i, hi, hr⟩ := Run.bind_eq_ok.1 hr
    have hf := Props.C42_decoded_fits b t ht
    have hi' : mapping.find t.mint = some i := by
      cases hm : mapping.find t.mint with
      | none => simp [hm, Run.unwrap] at hi
      | some j => simp [hm] at hi; rw [hi]
    obtain ⟨k, added, tk, slots1, e1, e2, e3, e4, e5, -, e6⟩ := save_spec h { t with mint := i }
      ⟨hmap _ _ hi', hf.amount, hf.delegate, hf.native, hf.additional⟩ (by omega)
    rw [e1] at hr
    simp only [Run.ok_bind] at hr
    have hv := view_save h e2 e3 e6
    have hlen : slots1.length ≤ slots.length + 1 := by
      cases added with
      | true => rw [(e4 rfl).1]; simp
      | false => rw [(e5 rfl).1]; simp
    have hnext : ∀ bo bm, ∀ s1, s1 = { s with tokens := tk, byOwner := bo, byMint := bm } →
        loadTokens mapping l s1 = .ok s' → ∃ slots', Holds s'.tokens slots' ∧ s'.mints = s.mints ∧ s'.table = s.table ∧
      s'.multisigs = s.multisigs ∧ s'.finalizedSlot = s.finalizedSlot ∧
      ∀ pk, (∀ b' ∈ b :: l, ∀ t, TokenAccount.fromBytes b' = .ok t → t.pubkey ≠ pk) →
        view s'.tokens slots' pk = view s.tokens slots pk := by
      intro bo bm s1 hs1 hr
      subst hs1
      obtain ⟨slots', k1, k2, k3, k4, k5, k6⟩ := ih (slots := slots1) e2 (by omega) hr
      refine ⟨slots', k1, k2, k3, k4, k5, fun pk hpk => ?_⟩
      rw [k6 pk (fun b' hb' => hpk b' (by simp [hb']))]
      show view tk slots1 pk = _
      rw [hv, if_neg]
      exact hpk b (by simp) t ht
    cases added with
    | true => exact hnext _ _ _ rfl hr
    | false => exact hnext _ _ _ rfl hr

/-- The last save of a public key wins. -/
theorem lastSaved_saves (pk : Pubkey) (t : TokenAccount) (pre post : List TokenAccount) (ht : t.pubkey = pk)
    (h : ∀ u ∈ post, u.pubkey ≠ pk) : lastSavedSharing pk ((pre ++ t :: post).map .save) = some t := by
  simp only [lastSavedSharing, List.map_append, List.map_cons, List.foldl_append, List.foldl_cons, ht, if_true]
  induction post with
  | nil => rfl
  | cons u post ih =>
    simp only [List.map_cons, List.foldl_cons, if_neg (h u (by simp))]
    exact ih (fun v hv => h v (by simp [hv]))

theorem lastSaved_saves_none (pk : Pubkey) (l : List TokenAccount) (h : ∀ u ∈ l, u.pubkey ≠ pk) :
    lastSavedSharing pk (l.map .save) = none := by
  simp only [lastSavedSharing]
  induction l with
  | nil => rfl
  | cons u post ih =>
    simp only [List.map_cons, List.foldl_cons, if_neg (h u (by simp))]
    exact ih (fun v hv => h v (by simp [hv]))

/-- The token accounts that go in the snapshot. -/
def chosen (p : Program) (slots : List TokenAccount) : List TokenAccount :=
  slots.filter (fun t => decide (t.program = p) && !t.isDeleted)

/-- A stored account is the last one of its public key in the snapshot. -/
theorem chosen_last {Q : ProgramAccount → Prop} {s : TokenStore} {slots orig : List TokenAccount} (h : Fin Q s slots orig)
    {i : Nat} {t : TokenAccount} (hi : Stored s.tokens slots i t) :
    ∃ pre post, chosen t.program slots = pre ++ t :: post ∧ ∀ u ∈ post, u.pubkey ≠ t.pubkey := by
  have hd := h.live i t hi
  have hi0 := hi
  obtain ⟨is, -, -, hs⟩ := hi
  obtain ⟨hlt, he⟩ := List.getElem?_eq_some_iff.1 hs
  have hsplit : slots = slots.take i ++ t :: slots.drop (i + 1) := by
    rw [← he, ← List.drop_eq_getElem_cons hlt, List.take_append_drop]
  refine ⟨chosen t.program (slots.take i), chosen t.program (slots.drop (i + 1)), ?_, ?_⟩
  · conv_lhs => rw [hsplit]
    simp [chosen, List.filter_append, hd]
  · intro u hu e
    simp only [chosen, List.mem_filter, Bool.and_eq_true, Bool.not_eq_true', decide_eq_true_eq] at hu
    obtain ⟨hu, -, hud⟩ := hu
    obtain ⟨j, hj⟩ := List.getElem?_of_mem hu
    rw [List.getElem?_drop] at hj
    have := h.last i _ t u hi0 hj e hud
    omega

theorem distinct_keys {l : AMap Nat MintAccount} (h : l.Distinct) : (l.map (·.1)).Nodup := List.pairwise_map.2 h

theorem mints_length {Q : ProgramAccount → Prop} {s : TokenStore} {slots orig : List TokenAccount} (h : Fin Q s slots orig) :
    s.mints.length ≤ s.table.counter := by
  have hsub : (s.mints.map (·.1)) ⊆ List.range s.table.counter := by
    intro i hi
    obtain ⟨e, he, rfl⟩ := List.mem_map.1 hi
    have hf : s.mints.find e.1 = some e.2 := AMap.find_of_mem h.mints_distinct he
    exact List.mem_range.2 (h.idx_lt _ _ (h.mints_idx _ _ hf))
  have := (List.subperm_of_subset (distinct_keys h.mints_distinct) hsub).length_le
  simpa using this

theorem snapshotOf_eq {Q : ProgramAccount → Prop} {s : TokenStore} {slots orig : List TokenAccount} (h : Fin Q s slots orig)
    (σ : SnapshotOrders) (p : Program) :
    s.snapshotOf σ p = .ok ⟨σ.mints (s.mints.filter (fun e => e.2.program = p)), σ.multisigs (s.multisigs.map (·.2)),
      (chosen p slots).map TokenAccount.toBytes⟩ := by
  simp only [snapshotOf, Props.createSnapshot_eq h.holds, Run.ok_bind, Run.pure_eq, chosen]

/-- The store loaded from a snapshot. -/
theorem loadSnapshot_spec {Q : ProgramAccount → Prop} {s : TokenStore} {slots orig : List TokenAccount} (h : Fin Q s slots orig)
    (hc : s.table.counter < 2 ^ 32) (hl : slots.length < 2 ^ 32) (σ : SnapshotOrders) (p : Program) {x : TokenSnapshot}
    (hx : s.snapshotOf σ p = .ok x)
    (hk : ∀ t ∈ chosen p slots, ∃ m, s.mints.find t.mint = some m ∧ m.program = p) :
    ∃ s', TokenStore.empty.loadSnapshot x = .ok s' ∧ s'.table.index = [] ∧ s'.finalizedSlot = 0 ∧ s'.processed = [] ∧
      (∀ pk, s'.multisigs.find pk = s.multisigs.find pk) ∧
      (∀ i t, Stored s.tokens slots i t → t.program = p → ∃ j, s'.tokens.getByPubkey t.pubkey = .ok (some { t with mint := j }) ∧
        s'.mints.find j = s.mints.find t.mint) ∧
      (∀ pk, (∀ t ∈ chosen p slots, t.pubkey ≠ pk) → s'.tokens.getByPubkey pk = .ok none) := by
  rw [snapshotOf_eq h] at hx
  cases hx
  obtain ⟨M, m1, m2, m3, m4⟩ := loadMultisigs_other (σ.multisigs (s.multisigs.map (·.2))) TokenStore.empty
  set ml := σ.mints (s.mints.filter (fun e => e.2.program = p)) with hml
  have hperm : ml.Perm (s.mints.filter (fun e => e.2.program = p)) := σ.mints_perm _
  have hmlen : ml.length < 2 ^ 32 := by
    have h1 := mints_length h
    have h2 : (s.mints.filter (fun e => e.2.program = p)).length ≤ s.mints.length := List.length_filter_le _ _
    have h3 := hperm.length_eq
    omega
  obtain ⟨map', mints', e1, e2, e3, e4, e5⟩ := loadMints_fresh ml [] { TokenStore.empty with multisigs := M } (fun _ _ => rfl)
    (by simpa [TokenStore.empty] using hmlen)
  have hnd : (ml.map (·.1)).Nodup := by
    refine (hperm.map _).nodup_iff.2 ?_
    exact List.Nodup.sublist (List.Sublist.map _ List.filter_sublist) (distinct_keys h.mints_distinct)
  have hmap : ∀ t ∈ chosen p slots, ∃ j, map'.find t.mint = some j ∧ mints'.find j = s.mints.find t.mint ∧ j < 2 ^ 32 := by
    intro t ht
    obtain ⟨m, hm, hp⟩ := hk t ht
    have hmem : (t.mint, m) ∈ ml := hperm.mem_iff.2 (List.mem_filter.2 ⟨AMap.mem_of_find hm, by simp [hp]⟩)
    obtain ⟨j, hj, hj'⟩ := e4 hnd _ hmem
    refine ⟨j, hj, by rw [hj', hm], ?_⟩
    rcases e5 _ _ hj with h | h
    · simp at h
    · simp [TokenStore.empty] at h; omega
  have hfits : ∀ t ∈ chosen p slots, TokenFits t := fun t ht => h.holds.fits t (List.mem_filter.1 ht).1
  have hadm : Admissible ((chosen p slots).map (fun t => .save (remap map' t))) := by
    constructor
    · intro u hu
      obtain ⟨t, ht, e⟩ := List.mem_map.1 hu
      cases e
      obtain ⟨j, hj, -, hlt⟩ := hmap t ht
      have hf := hfits t ht
      exact ⟨by simp [remap, hj, hlt], hf.amount, hf.delegate, hf.native, hf.additional⟩
    · have : (chosen p slots).length ≤ slots.length := List.length_filter_le _ _
      simp; omega
  obtain ⟨tk, tslots, r1, r2, r3⟩ := Props.reach _ hadm
  obtain ⟨bo, bm, hload⟩ := loadTokens_run (mapping := map') (chosen p slots)
    { TokenStore.empty with
      multisigs := M
      mints := mints'
      table := ⟨[], 0 + ml.length⟩ } tk
    (fun t ht => ⟨hfits t ht, by obtain ⟨j, hj, -⟩ := hmap t ht; simp [hj]⟩) r1
  refine ⟨⟨mints', ⟨[], 0 + ml.length⟩, M, bm, bo, tk, [], 0, 0⟩, ?_, rfl, rfl, rfl, ?_, ?_, ?_⟩
  · simp only [loadSnapshot]
    rw [m1, e1]
    exact hload
  · intro pk
    show M.find pk = _
    have hp2 := σ.multisigs_perm (s.multisigs.map (·.2))
    cases hf : s.multisigs.find pk with
    | none =>
      rw [m3 pk]
      · rfl
      · intro m hm e
        obtain ⟨⟨k, m'⟩, hkm, hm'⟩ := List.mem_map.1 (hp2.mem_iff.1 hm)
        simp at hm'; subst hm'
        have := AMap.find_of_mem h.multis_distinct hkm
        rw [(h.multis _ _ this).2] at e
        subst e
        rw [hf] at this; cases this
    | some m0 =>
      have hm0 : m0 ∈ σ.multisigs (s.multisigs.map (·.2)) :=
        hp2.mem_iff.2 (List.mem_map.2 ⟨_, AMap.mem_of_find hf, rfl⟩)
      obtain ⟨m, hm, e, hM⟩ := m4 pk m0 hm0 (h.multis _ _ hf).2
      obtain ⟨⟨k, m'⟩, hkm, hm'⟩ := List.mem_map.1 (hp2.mem_iff.1 hm)
      simp at hm'; subst hm'
      have := AMap.find_of_mem h.multis_distinct hkm
      rw [(h.multis _ _ this).2] at e
      subst e
      rw [hf] at this; cases this
      exact hM
  · intro i t hi hp
    subst hp
    have hin : t ∈ chosen t.program slots := by
      have hd := h.live i t hi
      obtain ⟨-, -, -, hs⟩ := hi
      exact List.mem_filter.2 ⟨List.mem_of_getElem? hs, by simp [hd]⟩
    obtain ⟨j, hj, hj', -⟩ := hmap t hin
    refine ⟨j, ?_, hj'⟩
    obtain ⟨pre, post, hsplit, hpost⟩ := chosen_last h hi
    show tk.getByPubkey t.pubkey = _
    rw [getByPubkey_eq r2, r3, hsplit]
    have : (pre ++ t :: post).map (fun t => TokenStorage.TokOp.save (remap map' t)) =
        ((pre.map (remap map')) ++ remap map' t :: post.map (remap map')).map .save := by
      simp [Function.comp_def]
    rw [this, lastSaved_saves t.pubkey (remap map' t)]
    · simp [remap, hj]
    · rfl
    · intro u hu
      obtain ⟨v, hv, rfl⟩ := List.mem_map.1 hu
      exact hpost v hv
  · intro pk hpk
    show tk.getByPubkey pk = _
    rw [getByPubkey_eq r2, r3]
    have : (chosen p slots).map (fun t => TokenStorage.TokOp.save (remap map' t)) =
        ((chosen p slots).map (remap map')).map .save := by
      simp [Function.comp_def]
    rw [this, lastSaved_saves_none]
    intro u hu
    obtain ⟨v, hv, rfl⟩ := List.mem_map.1 hu
    exact hpk v hv

end LAM.Token
