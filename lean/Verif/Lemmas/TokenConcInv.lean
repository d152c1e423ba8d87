import Verif.Lemmas.TokenConcFrom
/-!
# Concurrent calls of the token program store: an invariant of the store and of the calls being executed
-/
namespace LAM.TokConc
open Token Run Spec ProcStore
open Spl (tokenId token2022Id)

/-! ## The log grows -/

theorem Submitted.mono {log log' : List (Nat × Event)} (h : log <+: log') {a : AccountData} (ha : Submitted log a) :
    Submitted log' a := by
  obtain ⟨t, c, hm⟩ := ha
  exact ⟨t, c, h.subset hm⟩

theorem Noted.mono {log log' : List (Nat × Event)} (h : log <+: log') {a : AccountData} (ha : Noted log a) : Noted log' a := by
  obtain ⟨t, c, hm, hc⟩ := ha
  exact ⟨t, c, h.subset hm, hc⟩

theorem Noted.submitted {log : List (Nat × Event)} {a : AccountData} (ha : Noted log a) : Submitted log a := by
  obtain ⟨t, c, hm, -⟩ := ha
  exact ⟨t, some c, hm⟩

theorem Stems.mono {X : Codecs} {S S' : AccountData → Prop} (h : ∀ a, S a → S' a) {b : AccountData} (hb : Stems X S b) : Stems X S' b := by
  obtain ⟨a, p, h1, h2⟩ := hb
  exact ⟨a, p, h a h1, h2⟩

theorem Notified.mono {log log' : List (Nat × Event)} (h : log <+: log') {c : Commitment} {k : Nat} (hk : Notified log c k) :
    Notified log' c k := by
  obtain ⟨t, info, hm, e⟩ := hk
  exact ⟨t, info, h.subset hm, e⟩

theorem Up.mono {log log' : List (Nat × Event)} (h : log <+: log') {n k : Nat} (hk : Up log n k) : Up log' n k := by
  induction hk with
  | self => exact .self
  | parent _ hm ih => exact .parent ih (h.subset hm)

theorem ConfirmedChain.mono {log log' : List (Nat × Event)} (h : log <+: log') {k : Nat} (hk : ConfirmedChain log k) :
    ConfirmedChain log' k := by
  obtain ⟨n, hn, hu⟩ := hk
  exact ⟨n, hn.imp id (Notified.mono h), hu.mono h⟩

theorem Settled.mono {log log' : List (Nat × Event)} (h : log <+: log') {a : AccountData} (ha : Settled log a) : Settled log' a := by
  rcases ha with ⟨t, c, hm, hc⟩ | ⟨ha, n, hn, hu⟩
  · exact .inl ⟨t, c, h.subset hm, hc⟩
  · exact .inr ⟨ha.mono h, n, hn.mono h, hu.mono h⟩

theorem Settled.submitted {log : List (Nat × Event)} {a : AccountData} (ha : Settled log a) : Submitted log a := by
  rcases ha with ⟨t, c, hm, -⟩ | ⟨ha, -⟩
  · exact ⟨t, c, hm⟩
  · exact ha.submitted

theorem FinalSlot.mono {log log' : List (Nat × Event)} (h : log <+: log') {k : Nat} (hk : FinalSlot log k) : FinalSlot log' k :=
  hk.imp id (Notified.mono h)

theorem Shown.mono {X : Codecs} {log log' : List (Nat × Event)} (h : log <+: log') {c : Commitment} {b : AccountData}
    (hb : Shown X log c b) : Shown X log' c b :=
  hb.imp (fun hb => ⟨hb.1.mono fun _ ha => ha.mono h, hb.2.mono h⟩)
    fun hb => ⟨hb.1, hb.2.1.mono fun _ ha => ⟨ha.1.mono h, ha.2⟩, fun hc => (hb.2.2 hc).mono h⟩

theorem Shown.submitted {X : Codecs} {log : List (Nat × Event)} {c : Commitment} {b : AccountData} (hb : Shown X log c b) :
    Stems X (Submitted log) b := by
  rcases hb with ⟨hb, -⟩ | ⟨-, hb, -⟩
  · exact hb.mono fun a ha => ha.submitted
  · exact hb.mono fun a ha => ha.1.submitted

/-- Submitted for this slot, with this write version. -/
def NotedAt (log : List (Nat × Event)) (slot wv : Nat) (a : AccountData) : Prop := Noted log a ∧ a.slot = slot ∧ a.wv = wv

theorem NotedAt.mono {log log' : List (Nat × Event)} (h : log <+: log') {k w : Nat} {a : AccountData} (ha : NotedAt log k w a) :
    NotedAt log' k w a := ⟨ha.1.mono h, ha.2⟩

theorem ReplyOK.mono {X : Codecs} {log log' : List (Nat × Event)} (h : log <+: log') {k : Call} {r : Reply} (hr : ReplyOK X log k r) :
    ReplyOK X log' k r := by
  cases k <;> cases r <;> try exact hr
  case process.reported info c l =>
    exact ⟨hr.1, fun b hb => ⟨(hr.2 b hb).1.mono fun a ha => ⟨ha.1.mono h, ha.2⟩, (hr.2 b hb).2.1,
      fun hc => ((hr.2 b hb).2.2 hc).mono h⟩⟩
  case get.account pk c o =>
    exact fun b hb => ⟨(hr b hb).1, (hr b hb).2.mono h⟩
  case gpa.accounts p fs c r =>
    cases r with
    | error e => exact hr
    | ok l => exact ⟨hr.1, fun b hb => ⟨(hr.2 b hb).1.mono h, (hr.2 b hb).2⟩⟩

/-! ## The store -/

/-- The slots and the recorded parents were notified. -/
structure SlotsOK (log : List (Nat × Event)) (confirmedSlot finalizedSlot : Nat) (P : ProcStore) : Prop where
  confirmed : confirmedSlot = 0 ∨ Notified log .confirmed confirmedSlot
  finalized : FinalSlot log finalizedSlot
  parents : ∀ k e p, BMap.find P k = some e → e.parent = some p →
    ∃ t info c, (t, Event.call (.process info c)) ∈ log ∧ info.slot = k ∧ info.parent = p

theorem SlotsOK.mono {log log' : List (Nat × Event)} (h : log <+: log') {n m : Nat} {P : ProcStore} (hs : SlotsOK log n m P) :
    SlotsOK log' n m P where
  confirmed := hs.confirmed.imp id (Notified.mono h)
  finalized := hs.finalized.mono h
  parents := fun k e p h1 h2 => by
    obtain ⟨t, info, c, hm, e⟩ := hs.parents k e p h1 h2
    exact ⟨t, info, c, h.subset hm, e⟩

/-- Walking recorded parents is walking notified parents. -/
theorem SlotsOK.newest {log : List (Nat × Event)} {cs fs : Nat} {P : ProcStore} (hs : SlotsOK log cs fs P) {pk : Pubkey} {n k m : Nat}
    {x : Processed} (hm : Up log m n) (h : NewestOn P pk n x k) : Up log m k := by
  induction h with
  | here => exact hm
  | up h1 _ h3 _ ih =>
    obtain ⟨t, info, c, hi, rfl, rfl⟩ := hs.parents _ _ _ h1 h3
    exact ih (.parent hm hi)

/-- Everything in the store comes from submitted accounts. -/
structure StoreOK (X : Codecs) (log : List (Nat × Event)) (g : List Pubkey) (s : TokenStore) : Prop where
  tokens : ∃ slots : List TokenAccount, s.tokens.accounts = slots.map TokenAccount.toBytes ∧
    ∀ t ∈ slots, t = TokenStorage.tombstone ∨ From X g (Settled log) (.token t)
  buckets : ∀ p is, s.tokens.buckets.find p = some is → is ≠ [] ∧ ∀ i ∈ is, i < s.tokens.accounts.length
  table : TableOK g s.table
  mints : ∀ i m, (i, m) ∈ s.mints → Issued g i m.pubkey ∧ From X g (Settled log) (.mint m)
  multisigs : ∀ pk m, s.multisigs.find pk = some m → From X g (Settled log) (.multisig m pk)
  proc : ProcOk (fun _ => True) s.processed
  procFrom : ∀ k e pk x, BMap.find s.processed k = some e → e.accounts.find pk = some x →
    From X g (NotedAt log k x.wv) x.account
  slots : SlotsOK log s.confirmedSlot s.finalizedSlot s.processed

theorem StoreOK.mono {X : Codecs} {log log' : List (Nat × Event)} {g g' : List Pubkey} (hl : log <+: log') (hg : g <+: g')
    {s : TokenStore} {T : MintTable} (hT : TableOK g' T) (h : StoreOK X log g s) : StoreOK X log' g' { s with table := T } where
  tokens := by
    obtain ⟨slots, h1, h2⟩ := h.tokens
    exact ⟨slots, h1, fun t ht => (h2 t ht).imp id (From.mono hg fun a ha => ha.mono hl)⟩
  buckets := h.buckets
  table := hT
  mints := fun i m hm => ⟨(h.mints i m hm).1.mono hg, (h.mints i m hm).2.mono hg fun a ha => ha.mono hl⟩
  multisigs := fun pk m hm => (h.multisigs pk m hm).mono hg fun a ha => ha.mono hl
  proc := h.proc
  procFrom := fun k e pk x he hx => (h.procFrom k e pk x he hx).mono hg fun a ha => ha.mono hl
  slots := h.slots.mono hl

theorem StoreOK.log {X : Codecs} {log log' : List (Nat × Event)} {g : List Pubkey} (hl : log <+: log')
    {s : TokenStore} (h : StoreOK X log g s) : StoreOK X log' g s := h.mono hl (List.prefix_refl _) h.table

theorem StoreOK.mintKeys {X : Codecs} {log : List (Nat × Event)} {g : List Pubkey} {s : TokenStore} (h : StoreOK X log g s) :
    ∀ i m, s.mints.find i = some m → Issued g i m.pubkey := fun i m hm => (h.mints i m (AMap.mem_of_find hm)).1

theorem fits_slot {X : Codecs} {log : List (Nat × Event)} {g : List Pubkey} {t : TokenAccount}
    (h : t = TokenStorage.tombstone ∨ From X g (Settled log) (.token t)) : TokenFits t := by
  rcases h with rfl | h
  · exact tombstone_fits
  · exact h.fits.1

/-- Looking for an account at known positions never panics. -/
theorem firstMatch_ok {accounts : List Bytes} {slots : List TokenAccount} (h : accounts = slots.map TokenAccount.toBytes) (pk : Pubkey)
    (is : List Nat) (his : ∀ i ∈ is, i < accounts.length) :
    ∃ o, firstMatch accounts pk is = .ok o ∧ ∀ i, o = some i → i ∈ is ∧ ∃ t, slots[i]? = some t ∧ t.pubkey = pk := by
  induction is with
  | nil => exact ⟨none, rfl, by simp⟩
  | cons i is ih =>
    have hi := his i (by simp)
    have hi' : i < slots.length := by simpa [h] using hi
    have hb : accounts[i]? = some (slots[i]).toBytes := by rw [h]; simp [hi']
    simp only [firstMatch, hb, Run.unwrap_some, Run.ok_bind, getPubkey_toBytes]
    split
    · rename_i hp
      refine ⟨some i, rfl, fun j hj => ?_⟩
      cases hj
      exact ⟨by simp, slots[i], by simp [hi'], hp⟩
    · obtain ⟨o, h1, h2⟩ := ih fun j hj => his j (by simp [hj])
      exact ⟨o, h1, fun j hj => ⟨by simp [(h2 j hj).1], (h2 j hj).2⟩⟩

/-- The accounts at some positions. -/
theorem getByIndex_ok {X : Codecs} {log : List (Nat × Event)} {g : List Pubkey} {s : TokenStore} (h : StoreOK X log g s) (is : List Nat) :
    ∃ ts, s.tokens.getByIndex is = .ok ts ∧ ∀ t ∈ ts, t = TokenStorage.tombstone ∨ From X g (Settled log) (.token t) := by
  obtain ⟨slots, h1, h2⟩ := h.tokens
  unfold TokenStorage.getByIndex
  rw [h1]
  induction is with
  | nil => exact ⟨[], rfl, by simp⟩
  | cons i is ih =>
    obtain ⟨ts, g1, g2⟩ := ih
    simp only [List.getElem?_map] at g1
    rw [List.filterMap_cons]
    cases hi : slots[i]? with
    | none => simp only [List.getElem?_map, hi, Option.map_none]; exact ⟨ts, g1, g2⟩
    | some t =>
      have ht := h2 t (List.mem_of_getElem? hi)
      simp only [List.getElem?_map, hi, Option.map_some, mapRun, fromBytes_toBytes (fits_slot ht), Run.ok_bind, g1, Run.pure_eq]
      exact ⟨t :: ts, rfl, fun u hu => by
        rcases List.mem_cons.1 hu with rfl | hu
        · exact ht
        · exact g2 u hu⟩

theorem getByPubkey_ok {X : Codecs} {log : List (Nat × Event)} {g : List Pubkey} {s : TokenStore} (h : StoreOK X log g s) (pk : Pubkey) :
    ∃ o, s.tokens.getByPubkey pk = .ok o ∧ ∀ t, o = some t → t.pubkey = pk ∧
      (t = TokenStorage.tombstone ∨ From X g (Settled log) (.token t)) := by
  obtain ⟨slots, h1, h2⟩ := h.tokens
  unfold TokenStorage.getByPubkey
  cases hb : s.tokens.buckets.find (prefix4 pk) with
  | none => exact ⟨none, rfl, by simp⟩
  | some is =>
    obtain ⟨o, g1, g2⟩ := firstMatch_ok h1 pk is (h.buckets _ _ hb).2
    simp only [g1, Run.ok_bind]
    cases o with
    | none => exact ⟨none, rfl, by simp⟩
    | some i =>
      obtain ⟨-, t, ht, hk⟩ := g2 i rfl
      have hf := h2 t (List.mem_of_getElem? ht)
      simp only [h1, List.getElem?_map, ht, Option.map_some, Run.unwrap_some, Run.ok_bind, fromBytes_toBytes (fits_slot hf), Run.pure_eq]
      exact ⟨some t, rfl, fun u hu => by cases hu; exact ⟨hk, hf⟩⟩

theorem wrap32_le (n : Nat) : wrap32 n ≤ n := Nat.mod_le _ _

/-- Saving a token account never panics. -/
theorem save_ok {X : Codecs} {log : List (Nat × Event)} {g : List Pubkey} {s : TokenStore} (h : StoreOK X log g s) {t : TokenAccount}
    (ht : From X g (Settled log) (.token t)) : ∃ r T, s.tokens.save t = .ok (r, T) ∧ StoreOK X log g { s with tokens := T } ∧
      s.tokens.accounts.length ≤ T.accounts.length := by
  obtain ⟨slots, h1, h2⟩ := h.tokens
  have new : ∀ is, (∀ i ∈ is, i < s.tokens.accounts.length) →
      StoreOK X log g { s with tokens := ⟨s.tokens.buckets.insert (prefix4 t.pubkey) (is ++ [wrap32 s.tokens.accounts.length]),
        s.tokens.accounts ++ [t.toBytes]⟩ } := by
    intro is his
    refine ⟨⟨slots ++ [t], by simp [h1], fun u hu => ?_⟩, fun p is' hp => ?_, h.table, h.mints, h.multisigs, h.proc, h.procFrom, h.slots⟩
    · rcases List.mem_append.1 hu with hu | hu
      · exact h2 u hu
      · simp only [List.mem_singleton] at hu; subst hu; exact .inr ht
    · simp only [AMap.find_insert] at hp
      split at hp
      · cases hp
        refine ⟨by simp, fun i hi => ?_⟩
        simp only [List.length_append, List.length_singleton]
        rcases List.mem_append.1 hi with hi | hi
        · have := his i hi; omega
        · simp only [List.mem_singleton] at hi; subst hi
          have := wrap32_le s.tokens.accounts.length
          omega
      · have := h.buckets _ _ hp
        exact ⟨this.1, fun i hi => by have := this.2 i hi; simp; omega⟩
  unfold TokenStorage.save
  cases hb : s.tokens.buckets.find (prefix4 t.pubkey) with
  | none => exact ⟨_, _, rfl, new [] (by simp), by simp⟩
  | some is =>
    obtain ⟨o, g1, g2⟩ := firstMatch_ok h1 t.pubkey is (h.buckets _ _ hb).2
    simp only [g1, Run.ok_bind]
    cases o with
    | none => exact ⟨_, _, rfl, new is (h.buckets _ _ hb).2, by simp⟩
    | some i =>
      refine ⟨_, _, rfl, ⟨⟨slots.set i t, by simp [h1], fun u hu => ?_⟩, fun p is hp => ?_, h.table, h.mints, h.multisigs, h.proc,
        h.procFrom, h.slots⟩, by simp⟩
      · rcases List.mem_or_eq_of_mem_set hu with hu | rfl
        · exact h2 u hu
        · exact .inr ht
      · have := h.buckets _ _ hp
        exact ⟨this.1, fun i hi => by simpa using this.2 i hi⟩

/-- Deleting. -/
theorem entomb_ok {X : Codecs} {log : List (Nat × Event)} {g : List Pubkey} {s : TokenStore} (h : StoreOK X log g s) (i : Nat) :
    StoreOK X log g { s with tokens := { s.tokens with accounts := s.tokens.accounts.set i TokenStorage.tombstone.toBytes } } := by
  obtain ⟨slots, h1, h2⟩ := h.tokens
  refine ⟨⟨slots.set i TokenStorage.tombstone, by simp [h1], fun u hu => ?_⟩, fun p is hp => ?_, h.table, h.mints, h.multisigs, h.proc,
        h.procFrom, h.slots⟩
  · rcases List.mem_or_eq_of_mem_set hu with hu | rfl
    · exact h2 u hu
    · exact .inl rfl
  · have := h.buckets _ _ hp
    exact ⟨this.1, fun i hi => by simpa using this.2 i hi⟩

theorem dropBucket_ok {X : Codecs} {log : List (Nat × Event)} {g : List Pubkey} {s : TokenStore} (h : StoreOK X log g s) (p : Bytes) :
    StoreOK X log g { s with tokens := { s.tokens with buckets := s.tokens.buckets.erase p } } :=
  ⟨h.tokens, fun p' is hp => by
    simp only [AMap.find_erase] at hp
    split at hp
    · simp at hp
    · exact h.buckets _ _ hp, h.table, h.mints, h.multisigs, h.proc, h.procFrom, h.slots⟩

theorem eraseMint_ok {X : Codecs} {log : List (Nat × Event)} {g : List Pubkey} {s : TokenStore} (h : StoreOK X log g s) (i : Nat) :
    StoreOK X log g { s with mints := s.mints.erase i } :=
  ⟨h.tokens, h.buckets, h.table, fun j m hm => h.mints j m (List.mem_filter.1 hm).1, h.multisigs, h.proc, h.procFrom, h.slots⟩

theorem eraseIndex_ok {X : Codecs} {log : List (Nat × Event)} {g : List Pubkey} {s : TokenStore} (h : StoreOK X log g s) (pk : Pubkey) :
    StoreOK X log g { s with table := { s.table with index := s.table.index.erase pk } } :=
  ⟨h.tokens, h.buckets, ⟨h.table.counter, fun pk' i hi => by
    simp only [AMap.find_erase] at hi
    split at hi
    · simp at hi
    · exact h.table.index _ _ hi⟩, h.mints, h.multisigs, h.proc, h.procFrom, h.slots⟩

theorem putMint_ok {X : Codecs} {log : List (Nat × Event)} {g : List Pubkey} {s : TokenStore} (h : StoreOK X log g s) {m : MintAccount}
    {i : Nat} (hi : Issued g i m.pubkey) (hm : From X g (Settled log) (.mint m)) :
    StoreOK X log g { s with mints := s.mints.insert i m } :=
  ⟨h.tokens, h.buckets, h.table, fun j m' hj => by
    rcases AMap.mem_insert hj with e | hj
    · cases e; exact ⟨hi, hm⟩
    · exact h.mints _ _ hj, h.multisigs, h.proc, h.procFrom, h.slots⟩

theorem putIndex_ok {X : Codecs} {log : List (Nat × Event)} {g : List Pubkey} {s : TokenStore} (h : StoreOK X log g s) {pk : Pubkey}
    {i : Nat} (hi : Issued g i pk) : StoreOK X log g { s with table := { s.table with index := s.table.index.insert pk i } } :=
  ⟨h.tokens, h.buckets, ⟨h.table.counter, fun pk' j hj => by
    simp only [AMap.find_insert] at hj
    split at hj
    · rename_i e; cases hj; subst e; exact hi
    · exact h.table.index _ _ hj⟩, h.mints, h.multisigs, h.proc, h.procFrom, h.slots⟩

theorem putMultisig_ok {X : Codecs} {log : List (Nat × Event)} {g : List Pubkey} {s : TokenStore} (h : StoreOK X log g s) {m : MultiSig}
    {pk : Pubkey} (hm : From X g (Settled log) (.multisig m pk)) :
    StoreOK X log g { s with multisigs := s.multisigs.insert pk m } :=
  ⟨h.tokens, h.buckets, h.table, h.mints, fun pk' m' hj => by
    rw [AMap.find_insert] at hj
    split at hj
    · rename_i e; cases hj; subst e; exact hm
    · exact h.multisigs _ _ hj, h.proc, h.procFrom, h.slots⟩

theorem insert_ok {X : Codecs} {log : List (Nat × Event)} {g : List Pubkey} {s : TokenStore} (h : StoreOK X log g s)
    {x : ProgramAccount} {wv slot : Nat} (hx : From X g (NotedAt log slot wv) x) :
    StoreOK X log g { s with processed := (s.processed.insertAccount x.pubkey x wv slot).2 } ∧
      pending (s.processed.insertAccount x.pubkey x wv slot).2 ≤ pending s.processed + 1 := by
  obtain ⟨h1, h2⟩ := h.proc.insertAccount (x := x) trivial wv slot
  refine ⟨⟨h.tokens, h.buckets, h.table, h.mints, h.multisigs, h1, fun k e pk y he hy => ?_, h.slots.confirmed, h.slots.finalized,
    fun k e p he hp => ?_⟩, h2⟩
  rotate_left
  · have put : ∀ e0 : BySlot, (e0.parent = some p → ∃ t info c, (t, Event.call (.process info c)) ∈ log ∧ info.slot = slot ∧
        info.parent = p) →
        BMap.find (BMap.insert s.processed slot { e0 with accounts := e0.accounts.insert x.pubkey ⟨x, wv⟩ }) k = some e →
        ∃ t info c, (t, Event.call (.process info c)) ∈ log ∧ info.slot = k ∧ info.parent = p := by
      intro e0 h0 he
      rw [BMap.find_insert] at he
      split at he
      · rename_i ek
        cases he
        subst ek
        exact h0 hp
      · exact h.slots.parents _ _ _ he hp
    simp only [ProcStore.insertAccount] at he
    cases hf : BMap.find s.processed slot with
    | none =>
      rw [hf] at he
      exact put ⟨[], none⟩ (by simp) he
    | some e0 =>
      rw [hf] at he
      simp only at he
      split at he
      · split at he
        · exact put e0 (h.slots.parents _ _ _ hf) he
        · exact h.slots.parents _ _ _ he hp
      · exact put e0 (h.slots.parents _ _ _ hf) he
  have put : ∀ e0 : BySlot, (∀ pk y, e0.accounts.find pk = some y → From X g (NotedAt log slot y.wv) y.account) →
      BMap.find (BMap.insert s.processed slot { e0 with accounts := e0.accounts.insert x.pubkey ⟨x, wv⟩ }) k = some e →
      From X g (NotedAt log k y.wv) y.account := by
    intro e0 h0 he
    rw [BMap.find_insert] at he
    split at he
    · rename_i ek
      cases he
      subst ek
      rw [AMap.find_insert] at hy
      split at hy
      · cases hy; exact hx
      · exact h0 _ _ hy
    · exact h.procFrom _ _ _ _ he hy
  simp only [ProcStore.insertAccount] at he
  cases hf : BMap.find s.processed slot with
  | none =>
    rw [hf] at he
    exact put ⟨[], none⟩ (by simp) he
  | some e0 =>
    rw [hf] at he
    have h0 : ∀ pk y, e0.accounts.find pk = some y → From X g (NotedAt log slot y.wv) y.account := fun pk y h' => h.procFrom _ _ _ _ hf h'
    simp only at he
    split at he
    · split at he
      · exact put e0 h0 he
      · exact h.procFrom _ _ _ _ he hy
    · exact put e0 h0 he

theorem slotInfo_ok {X : Codecs} {log : List (Nat × Event)} {g : List Pubkey} {s : TokenStore} (h : StoreOK X log g s) {info : SlotInfo}
    (hi : ∃ t c, (t, Event.call (.process info c)) ∈ log) :
    StoreOK X log g { s with processed := s.processed.updateSlotInfo info } ∧
      pending (s.processed.updateSlotInfo info) = pending s.processed := by
  obtain ⟨h1, h2⟩ := h.proc.updateSlotInfo info
  refine ⟨⟨h.tokens, h.buckets, h.table, h.mints, h.multisigs, h1, fun k e pk y he hy => ?_, h.slots.confirmed, h.slots.finalized,
    fun k e p he hp => ?_⟩, h2⟩
  rotate_left
  · obtain ⟨t, c, hi⟩ := hi
    simp only [ProcStore.updateSlotInfo] at he
    split at he
    · rw [BMap.find_insert] at he
      split at he
      · rename_i ek
        cases he
        simp only [Option.some.injEq] at hp
        exact ⟨t, info, c, hi, ek, hp⟩
      · exact h.slots.parents _ _ _ he hp
    · rw [BMap.find_insert] at he
      split at he
      · cases he; simp at hp
      · exact h.slots.parents _ _ _ he hp
  simp only [ProcStore.updateSlotInfo] at he
  split at he
  · rename_i e0 hf
    rw [BMap.find_insert] at he
    split at he
    · rename_i ek; cases he; subst ek; exact h.procFrom _ _ _ _ hf hy
    · exact h.procFrom _ _ _ _ he hy
  · rw [BMap.find_insert] at he
    split at he
    · cases he; simp at hy
    · exact h.procFrom _ _ _ _ he hy

theorem finalize_ok {X : Codecs} {log : List (Nat × Event)} {g : List Pubkey} {s : TokenStore} (h : StoreOK X log g s) (slot : Nat) :
    ∃ P l, s.processed.finalize slot = .ok (P, l) ∧ StoreOK X log g { s with processed := P } ∧ l.length + pending P ≤ pending s.processed ∧
      ∀ x k, (x, k) ∈ l → From X g (NotedAt log k x.wv) x.account ∧ Up log slot k := by
  obtain ⟨P, l, h1, h2, h3, h4, -, h6⟩ := finalize_spec h.proc slot
  refine ⟨P, l, h1, ⟨h.tokens, h.buckets, h.table, h.mints, h.multisigs, h2, fun k e pk y he hy => ?_,
    h.slots.confirmed, h.slots.finalized, fun k e p he hp => ?_⟩, h3, fun x k hx => ?_⟩
  · by_cases hk : k ≤ slot ∨ OnChain s.processed slot k
    · rw [(h6 k).1 hk] at he; simp at he
    · rw [(h6 k).2 hk] at he; exact h.procFrom _ _ _ _ he hy
  · by_cases hk : k ≤ slot ∨ OnChain s.processed slot k
    · rw [(h6 k).1 hk] at he; simp at he
    · rw [(h6 k).2 hk] at he; exact h.slots.parents _ _ _ he hp
  · have hn := (h4 x k).1 hx
    obtain ⟨e, he, hx⟩ := newest_mem hn
    exact ⟨h.procFrom _ _ _ _ he hx, h.slots.newest .self hn⟩

end LAM.TokConc
