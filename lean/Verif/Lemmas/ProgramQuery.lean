import Verif.Spec.ProgramQuery
import Verif.Lemmas.ProgramAlive
import Verif.Props.Program
import Verif.Props.TokenQuery
/-!
# Lemmas for C111, C112
-/
namespace LAM.Props
open Spec Token Sim ProcStore
open TokenStore (TOp)

variable {X : Codecs} {decode : Bytes → Option Manifest} {items : List Item} {ws : List (Nat × Written)} {evs : List Event}

/-- If the archive is loaded before the first notification, the stream is followed, and the store knows the mints of the
archive. -/
theorem served_ready {w : Main} (ha : WellFormedArchive decode items ws) (hc : Consistent (tokenOwned (ws.map (·.2))))
    (hp : Plain evs) (hs : StreamRespects X ws evs) (hh : Event.hangUp ∉ evs) (hn : evs.length < 2 ^ 31)
    (hf : LoadsFirst X decode true evs (Main.start true items)) (hr : (Main.start true items).run X decode evs = .ok w)
    (hw : w.serves) :
    w.listening = true ∧ ∃ ix n slots orig, Ready (ArchiveMint ws) ix w.store ∧
      Inv (Safe (ArchiveMint ws) ix (fun _ _ _ => True)) n w.store slots orig := by
  obtain ⟨w', before, rest, n, A, B, h1, h2, h3, h4, h5, h6, h7, h8, h9, h10⟩ := main_alive evs ha hc hp hs hh hn hf
  rw [hr] at h1; cases h1
  have hrest := (not_done_of_left h3).1 hw
  subst hrest
  have hall : before = tokenOwned (ws.map (·.2)) := by rw [h4]; simp [tokenOwned]
  have hi : Interleaved (archived ws) (streamed evs) (A ++ B) := by rw [archived, ← hall]; exact h5
  simp only [List.length_append] at h6
  obtain ⟨ix, slots, orig, g1, g2⟩ := feed_ready hc hs hi (by omega) h7 h8 h9
  exact ⟨h2, ix, _, slots, orig, g1, g2⟩

/-! ## Filters -/

theorem keyAt_filter {off : Nat} {f : AccountFilterType} {pk : Pubkey} (h : keyAt? off f = some pk) : f = .memcmp ⟨off, .bytes pk.bytes⟩ := by
  unfold keyAt? at h
  split at h
  · rename_i b hb
    split at h
    · cases h
      unfold rawAt? at hb
      split at hb
      · split at hb
        · cases hb; rename_i e; subst e; rfl
        · simp at hb
      · simp at hb
    · simp at h
  · simp at h

theorem lastIs_filter {off : Nat} {l : List AccountFilterType} {pk : Pubkey} (h : LastIs (keyAt? off) l pk) :
    AccountFilterType.memcmp ⟨off, .bytes pk.bytes⟩ ∈ l := by
  obtain ⟨pre, f, post, rfl, h1, -⟩ := h
  rw [keyAt_filter h1]
  simp

theorem window_field {off : Nat} {pat d : Bytes} : WindowAt off pat d ↔ field d off pat.length = pat ∧ off + pat.length ≤ d.length := by
  unfold WindowAt field
  constructor
  · rintro ⟨p, q, rfl, rfl⟩
    refine ⟨?_, by simp⟩
    rw [List.append_assoc, List.drop_left, List.take_left]
  · rintro ⟨h1, h2⟩
    refine ⟨d.take off, (d.drop off).drop pat.length, ?_, by simp; omega⟩
    conv_lhs => rw [← List.take_append_drop off d, ← List.take_append_drop pat.length (d.drop off), h1]
    simp

theorem allows_owner {bs : Bytes} {sa : Spl.Account} (h : AccountLayout bs sa) (owner : Pubkey) :
    Allows X (.memcmp ⟨32, .bytes owner.bytes⟩) bs ↔ sa.owner = owner := by
  have hl := h.length
  have e : WindowAt 32 sa.owner.bytes bs := window_field.2 ⟨by rw [sa.owner.2]; exact h.owner, by rw [sa.owner.2]; omega⟩
  simp only [Allows, pattern, Option.some.injEq, exists_eq_left']
  exact ⟨fun h => window_key e h, fun h => h ▸ e⟩

theorem allows_mint {bs : Bytes} {sa : Spl.Account} (h : AccountLayout bs sa) (mint : Pubkey) :
    Allows X (.memcmp ⟨0, .bytes mint.bytes⟩) bs ↔ sa.mint = mint := by
  have hl := h.length
  have e : WindowAt 0 sa.mint.bytes bs := window_field.2 ⟨by rw [sa.mint.2]; exact h.mint, by rw [sa.mint.2]; omega⟩
  simp only [Allows, pattern, Option.some.injEq, exists_eq_left']
  exact ⟨fun h => window_key e h, fun h => h ▸ e⟩

/-! ## What is listed is what is read -/

/-- An account listed for an owner is the one a finalized read shows, unless a key with the same first four bytes was closed. -/
theorem listed_read {s : TokenStore} {ops : List TOp} {σ : Orders} {program owner pk : Pubkey} {l : List AccountFilterType}
    {rs : List AccountData} {r : AccountData} (hn : ops.length < 2 ^ 31) (hw : NoTwinClosed X pk ops) (hk : OnlyToken X pk ops)
    (hr : TokenStore.run X ops .empty = .ok s) (ho : AsksOwner program l owner)
    (hg : s.getProgramAccounts X σ program (some l) .finalized = .ok (.ok rs)) (hm : r ∈ rs) (hp : r.pubkey = pk) :
    s.getAccount pk .finalized = .ok (some r) := by
  obtain ⟨slots, orig, inv⟩ := stream_inv hn hw hr
  obtain ⟨j1, j2, -⟩ := stream_only ops hn hk hr
  obtain ⟨mint, e1, -⟩ := ownerMint_of ho
  obtain ⟨is, i, t, -, -, h3, -, -, h5⟩ := (gpa_owner inv.fin e1 (gpa_finalized hg).2 r).1 hm
  obtain ⟨h6, m, -, h7⟩ := tokenToSolana_some h5
  have hk' : t.pubkey = pk := by rw [← hp, h7]
  have hst := inv.fin.linked pk (fun p hp hpp hd => hd p rfl hp hpp) i t h3 hk' h6
  have hv := (view_eq_some inv.fin.holds).2 ⟨hk', i, hst⟩
  have := ((getFinalized_eq inv.fin pk).2.2.2.1 j1 (by simp [recOf, j2]) t hv).1
  show s.getFinalized pk = _
  rw [this, h5]

/-! ## Every account is listed at most once -/

/-- The token account has this key and is not deleted. -/
def holdsKey (pk : Pubkey) (t : TokenAccount) : Bool := decide (t.pubkey = pk) && !t.isDeleted

theorem tokensToSolana_count {mints : AMap Nat MintAccount} {slot : Nat} {pk : Pubkey} {l : List TokenAccount} {rs : List AccountData}
    (h : TokenStore.tokensToSolana mints slot l = .ok rs) : rs.countP (fun r => decide (r.pubkey = pk)) ≤ l.countP (holdsKey pk) := by
  induction l generalizing rs with
  | nil => simp [TokenStore.tokensToSolana] at h; subst h; simp
  | cons t l ih =>
    simp only [TokenStore.tokensToSolana, Run.bind_eq_ok] at h
    obtain ⟨r, h1, rs', h2, h⟩ := h
    cases h
    have := ih h2
    cases r with
    | none => simp only [Option.toList_none, List.nil_append]; exact Nat.le_trans this (List.Sublist.countP_le (List.sublist_cons_self _ _))
    | some r =>
      obtain ⟨e1, m, -, e2⟩ := tokenToSolana_some h1
      have e3 : holdsKey pk t = decide (r.pubkey = pk) := by rw [e2]; simp [holdsKey, e1]
      simp only [Option.toList_some, List.singleton_append, List.countP_cons, e3]
      omega

theorem slots_count {s : TokenStore} {Q : ProgramAccount → Prop} {slots orig : List TokenAccount} {pk : Pubkey} (h : Fin Q s slots orig)
    (hq : ∀ p, p ≠ pk → prefix4 p = prefix4 pk → ¬ Q (.deleted p)) {is : List Nat} (hn : is.Nodup) :
    (is.filterMap (fun i => slots[i]?)).countP (holdsKey pk) ≤ 1 := by
  have key : ∀ (i j : Nat) t u, slots[i]? = some t → slots[j]? = some u → holdsKey pk t = true → holdsKey pk u = true → i = j := by
    intro i j t u h1 h2 h3 h4
    simp only [holdsKey, Bool.and_eq_true, decide_eq_true_eq, Bool.not_eq_true'] at h3 h4
    obtain ⟨is, g1, g2, g3⟩ := h.linked pk hq i t h1 h3.1 h3.2
    obtain ⟨js, k1, k2, k3⟩ := h.linked pk hq j u h2 h4.1 h4.2
    rw [h3.1] at g1; rw [h4.1, g1] at k1
    cases k1
    exact h.holds.unique _ _ _ _ _ _ g1 g2 k2 g3 k3 (by rw [h3.1, h4.1])
  induction is with
  | nil => simp
  | cons i is ih =>
    obtain ⟨n1, n2⟩ := List.nodup_cons.1 hn
    have := ih n2
    cases hi : slots[i]? with
    | none => simpa [List.filterMap_cons, hi] using this
    | some t =>
      simp only [List.filterMap_cons, hi, List.countP_cons]
      by_cases ht : holdsKey pk t = true
      · have : (is.filterMap (fun i => slots[i]?)).countP (holdsKey pk) = 0 := by
          rw [List.countP_eq_zero]
          intro u hu hk
          obtain ⟨j, hj, hu⟩ := List.mem_filterMap.1 hu
          exact n1 (key i j t u hi hu ht hk ▸ hj)
        simp [this, ht]
      · simpa [ht] using this

theorem listed_once {s : TokenStore} {ops : List TOp} {σ : Orders} {program owner pk : Pubkey} {l : List AccountFilterType}
    {rs : List AccountData} (hn : ops.length < 2 ^ 31) (hw : NoTwinClosed X pk ops)
    (hr : TokenStore.run X ops .empty = .ok s) (ho : AsksOwner program l owner)
    (hg : s.getProgramAccounts X σ program (some l) .finalized = .ok (.ok rs)) : rs.countP (fun r => decide (r.pubkey = pk)) ≤ 1 := by
  obtain ⟨slots, orig, inv⟩ := stream_inv hn hw hr
  obtain ⟨mint, e1, -⟩ := ownerMint_of ho
  have hg := (gpa_finalized hg).2
  unfold TokenStore.gpaFinalized at hg
  simp only [e1, Run.bind_eq_ok] at hg
  obtain ⟨mi, -, hg⟩ := hg
  split at hg
  · rename_i is _
    rw [getByIndex_eq inv.fin.holds] at hg
    simp only [Run.ok_bind, Run.bind_eq_ok] at hg
    obtain ⟨rs', h1, hg⟩ := hg
    cases hg
    refine Nat.le_trans (tokensToSolana_count h1) (Nat.le_trans ?_ (slots_count inv.fin (fun p hp hpp hd => hd p rfl hp hpp) (σ.set_nodup is)))
    exact List.Sublist.countP_le List.filter_sublist
  · cases hg; simp

/-! ## Answers can be shown -/

/-- The data is not compressed. -/
def Raw (r : AccountData) : Prop := ∃ bs, r.account.data = .uncompressed bs

theorem Raw.readable {r : AccountData} (h : Raw r) : ∃ d, r.account.data.data X = .ok d := by
  obtain ⟨bs, h⟩ := h
  exact ⟨bs, by rw [h]; rfl⟩

theorem raw_token {mints : AMap Nat MintAccount} {t : TokenAccount} {slot wv : Nat} {r : AccountData}
    (h : tokenToSolana mints t slot wv = .ok (some r)) : Raw r := by
  obtain ⟨-, m, -, rfl⟩ := tokenToSolana_some h
  exact ⟨_, rfl⟩

theorem raw_multisig {m : MultiSig} {pk : Pubkey} {slot wv : Nat} {r : AccountData} (h : multisigToSolana m pk slot wv = .ok r) : Raw r := by
  simp only [multisigToSolana, Run.bind_eq_ok] at h
  obtain ⟨d, -, h⟩ := h
  cases h
  exact ⟨_, rfl⟩

theorem raw_program {mints : AMap Nat MintAccount} {x : ProgramAccount} {slot wv : Nat} {r : AccountData}
    (h : x.toSolana mints slot wv = .ok (some r)) : Raw r := by
  cases x with
  | token t => exact raw_token h
  | mint m => cases h; exact ⟨_, rfl⟩
  | multisig m pk =>
    simp only [ProgramAccount.toSolana, Run.bind_eq_ok] at h
    obtain ⟨r', h1, h⟩ := h
    cases h
    exact raw_multisig h1
  | deleted pk => simp [ProgramAccount.toSolana] at h

theorem raw_final {s : TokenStore} {pk : Pubkey} {r : AccountData} (h : s.getFinalized pk = .ok (some r)) : Raw r := by
  unfold TokenStore.getFinalized at h
  split at h
  · simp only [Run.bind_eq_ok] at h
    obtain ⟨r', h1, h⟩ := h
    cases h
    exact raw_multisig h1
  · split at h
    · simp only [Run.bind_eq_ok] at h
      obtain ⟨m, -, h⟩ := h
      cases h
      exact ⟨_, rfl⟩
    · simp only [Run.bind_eq_ok] at h
      obtain ⟨t, -, h⟩ := h
      split at h
      · split at h
        · simp at h
        · exact raw_token h
      · simp at h

theorem raw_read {s : TokenStore} {pk : Pubkey} {c : Commitment} {r : AccountData} (h : s.getAccount pk c = .ok (some r)) : Raw r := by
  unfold TokenStore.getAccount at h
  split at h
  · exact raw_final h
  · simp only [Run.bind_eq_ok] at h
    obtain ⟨rs, -, o, -, h⟩ := h
    split at h
    · exact raw_program h
    · exact raw_final h

theorem raw_tokens {mints : AMap Nat MintAccount} {slot : Nat} {l : List TokenAccount} {rs : List AccountData}
    (h : TokenStore.tokensToSolana mints slot l = .ok rs) : ∀ r ∈ rs, Raw r := by
  intro r hr
  obtain ⟨t, -, h⟩ := (tokensToSolana_mem h r).1 hr
  exact raw_token h

theorem filterRun_mem {α : Type} {f : α → Run Bool} : ∀ {l rs : List α}, TokenStorage.filterRun f l = .ok rs → ∀ r ∈ rs, r ∈ l := by
  intro l
  induction l with
  | nil => intro rs h r hr; simp [TokenStorage.filterRun] at h; subst h; simp at hr
  | cons a l ih =>
    intro rs h r hr
    simp only [TokenStorage.filterRun, Run.bind_eq_ok] at h
    obtain ⟨b, -, ys, h1, h⟩ := h
    cases b <;> simp at h <;> subst h
    · exact List.mem_cons_of_mem _ (ih h1 r hr)
    · rcases List.mem_cons.1 hr with rfl | hr
      · simp
      · exact List.mem_cons_of_mem _ (ih h1 r hr)

theorem raw_listed {s : TokenStore} {σ : Orders} {program : Pubkey} {fs : Option (List AccountFilterType)} {rs : List AccountData}
    (h : s.gpaFinalized X σ program fs = .ok (.ok rs)) : ∀ r ∈ rs, Raw r := by
  unfold TokenStore.gpaFinalized at h
  split at h
  · simp at h
  · split at h
    · simp only [Run.bind_eq_ok] at h
      obtain ⟨mi, -, h⟩ := h
      split at h
      · simp only [Run.bind_eq_ok] at h
        obtain ⟨ts, -, rs', h1, h⟩ := h
        cases h
        exact raw_tokens h1
      · cases h; simp
    · split at h
      · split at h
        · simp only [Run.bind_eq_ok] at h
          obtain ⟨ts, -, rs', h1, h⟩ := h
          cases h
          exact raw_tokens h1
        · cases h; simp
      · cases h; simp
    · split at h
      · simp only [Run.bind_eq_ok] at h
        obtain ⟨rs', h1, h⟩ := h
        cases h
        intro r hr
        have := filterRun_mem h1 r hr
        simp only [List.mem_map] at this
        obtain ⟨e, -, rfl⟩ := this
        exact ⟨_, rfl⟩
      · simp at h

theorem raw_overlay {mints : AMap Nat MintAccount} {l : List AccountData} {a : Answers} {rs : List AccountData}
    (hl : ∀ r ∈ l, Raw r) (h : TokenStore.overlay mints l a = .ok rs) : ∀ r ∈ rs, Raw r := by
  induction l generalizing a rs with
  | nil => cases a <;> simp [TokenStore.overlay] at h <;> subst h <;> simp
  | cons x l ih =>
    cases a with
    | nil => simp [TokenStore.overlay] at h; subst h; exact hl
    | cons y a =>
      cases y with
      | none =>
        simp only [TokenStore.overlay, Run.bind_eq_ok] at h
        obtain ⟨ys, h1, h⟩ := h
        cases h
        intro r hr
        rcases List.mem_cons.1 hr with rfl | hr
        · exact hl _ (by simp)
        · exact ih (fun r hr => hl r (by simp [hr])) h1 r hr
      | some p =>
        obtain ⟨p, slot⟩ := p
        simp only [TokenStore.overlay, Run.bind_eq_ok] at h
        obtain ⟨y, h0, ys, h1, h⟩ := h
        cases h
        intro r hr
        rcases List.mem_append.1 hr with hr | hr
        · cases y with
          | none => simp at hr
          | some y => simp at hr; subst hr; exact raw_program h0
        · exact ih (fun r hr => hl r (by simp [hr])) h1 r hr

theorem raw_query {s : TokenStore} {σ : Orders} {program : Pubkey} {fs : Option (List AccountFilterType)} {c : Commitment}
    {rs : List AccountData} (h : s.getProgramAccounts X σ program fs c = .ok (.ok rs)) : ∀ r ∈ rs, Raw r := by
  unfold TokenStore.getProgramAccounts at h
  split at h
  · simp at h
  · simp only [Run.bind_eq_ok] at h
    obtain ⟨r, h1, h⟩ := h
    cases r with
    | error e => simp at h
    | ok l =>
      simp only at h
      split at h
      · cases h; exact raw_listed h1
      · simp only [Run.bind_eq_ok] at h
        obtain ⟨a, -, rs', h2, h⟩ := h
        cases h
        exact raw_overlay (raw_listed h1) h2

/-! ## The RPC server answers -/

variable {U : Type} {E : Rpc.Externals U} {S : Rpc.Storage}

theorem keyed_total (m : Nat) (c : Option Rpc.AccountConfig) (l : List AccountData) (h : ∀ a ∈ l, ∃ d, a.account.data.data X = .ok d) :
    ∃ r, Rpc.keyed X E m c l = .ok r := by
  induction l with
  | nil => exact ⟨_, rfl⟩
  | cons a l ih =>
    obtain ⟨r, hr⟩ := ih (fun b hb => h b (List.mem_cons_of_mem _ hb))
    obtain ⟨d, hd⟩ := h a List.mem_cons_self
    simp only [Rpc.keyed]
    split
    · simp [Rpc.toUi, Account.toSolana, hd, hr]
    · exact ⟨r, hr⟩

theorem filters_for {config : Option Rpc.ProgramConfig} {fs : Option (List AccountFilterType)} (h : FiltersFor X config fs) :
    Rpc.accountFilters X config = .ok fs := by
  have hall : ∀ {rs : List RpcFilter} {l : List AccountFilterType}, List.Forall₂ (SameFilter X) rs l →
      mapRun (AccountFilterType.ofRpc X) rs = .ok l := by
    intro rs l h
    induction h with
    | nil => rfl
    | @cons r f rs l h1 _ ih =>
      have : AccountFilterType.ofRpc X r = .ok f := by
        cases r with
        | dataSize n => cases h1; rfl
        | memcmp off b => cases b <;> cases h1 <;> rfl
        | tokenAccountState => exact absurd h1 (by simp [SameFilter])
      simp [mapRun, this, ih]
  rcases config with _ | ⟨_ | rs, ac, ctx⟩
  · cases fs with
    | none => rfl
    | some l => exact absurd h (by simp [FiltersFor])
  · cases fs with
    | none => rfl
    | some l => exact absurd h (by simp [FiltersFor])
  · cases fs with
    | none => exact absurd h (by simp [FiltersFor])
    | some l => simp [Rpc.accountFilters, hall h]

/-- The filters of a request are well-formed. -/
theorem filters_wellFormed {config : Option Rpc.ProgramConfig} {fs : Option (List AccountFilterType)} (h : FiltersFor X config fs) :
    QueryWellFormed X fs := by
  rintro l rfl
  have : ∃ rs, List.Forall₂ (SameFilter X) rs l := by
    rcases config with _ | ⟨_ | rs, ac, ctx⟩
    · exact absurd h (by simp [FiltersFor])
    · exact absurd h (by simp [FiltersFor])
    · exact ⟨rs, h⟩
  clear h
  obtain ⟨rs, h⟩ := this
  intro f hf
  induction h with
  | nil => simp at hf
  | @cons r g rs l h1 _ ih =>
    rcases List.mem_cons.1 hf with rfl | hf
    · cases r with
      | dataSize n => cases h1; trivial
      | memcmp off b => cases b <;> cases h1 <;> simp [WellFormed, pattern]
      | tokenAccountState => exact absurd h1 (by simp [SameFilter])
    · exact ih hf

/-- What the storage lists is shown, in the same order, if no context is asked for. -/
theorem list_shown {program : Bytes} {p : Pubkey} {config : Option Rpc.ProgramConfig} {fs : Option (List AccountFilterType)}
    {gpa : List AccountData} (hp : E.parse program = some p) (hf : FiltersFor X config fs) (hw : ¬ WantsContext config)
    (hg : S.getProgramAccounts p fs (commitmentFor (config.map (·.account))) = .ok (.ok gpa))
    (hd : ∀ a ∈ gpa, ∃ d, a.account.data.data X = .ok d) :
    ∃ shown, Rpc.getProgramAccounts X E S program config = .ok (.ok (.noContext shown)) ∧
      List.Forall₂ (fun a k => k.pubkey = E.text a.pubkey ∧ Shows X E (config.map (·.account)) a k.account) gpa shown := by
  obtain ⟨shown, hk⟩ := keyed_total (E := E) 0 (config.map (·.account)) gpa hd
  refine ⟨shown, ?_, by simpa using keyed_shows hk⟩
  have hcom : Commitment.ofConfig ((config.bind (·.account.commitment)).getD Rpc.defaultCommitment) =
      commitmentFor (config.map (·.account)) := by
    rw [← commitmentFor_eq]
    cases config <;> rfl
  have hctx : (config.map (·.withContext.getD false)).getD false = false := by
    rcases config with _ | ⟨_, _, _ | _ | _⟩
    · rfl
    · rfl
    · rfl
    · exact absurd ⟨_, rfl, rfl⟩ hw
  have hmin : ((config.map (fun c => if c.withContext.getD false then c.account.minContextSlot else none)).getD none).getD 0 = 0 := by
    rcases config with _ | ⟨_, _, _ | _ | _⟩
    · rfl
    · rfl
    · rfl
    · exact absurd ⟨_, rfl, rfl⟩ hw
  simp only [Rpc.getProgramAccounts, hp, filters_for hf, hcom, hg, Run.ok_bind, hctx, hmin, hk]
  simp

end LAM.Props
