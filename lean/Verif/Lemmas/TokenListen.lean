import Verif.Spec.TokenListen
import Verif.Lemmas.TokenStreamFin
import Verif.Lemmas.KnownMint
import Verif.Lemmas.StoreChain
/-!
# Lemmas: a listener to the token store
-/
namespace LAM.Token
open Spec ProcStore Run
open TokenStore (TOp)
namespace Listen
open Store (anc_le anc_ne anc_trans anc_linear)

/-! ## The newest state on the recorded chain -/

/-- The recorded parent. -/
def parentAt (P : ProcStore) (k : Nat) : Option Nat := (BMap.find P k).bind (fun e => e.parent)

theorem newest_here {P : ProcStore} {pk : Pubkey} {s : Nat} {x : Processed} (h : stateAt P s pk = some x) :
    NewestOn P pk s x s := by
  simp only [stateAt, Option.bind_eq_some_iff] at h
  obtain ⟨e, h1, h2⟩ := h
  exact .here h1 h2

theorem newest_up {P : ProcStore} {pk : Pubkey} {s p k : Nat} {x : Processed} (h : stateAt P s pk = none)
    (hp : parentAt P s = some p) (hn : NewestOn P pk p x k) : NewestOn P pk s x k := by
  simp only [parentAt, Option.bind_eq_some_iff] at hp
  obtain ⟨e, h1, h2⟩ := hp
  refine .up h1 ?_ h2 hn
  simpa [stateAt, h1] using h

theorem newest_cases {P : ProcStore} {pk : Pubkey} {s k : Nat} {x : Processed} (h : NewestOn P pk s x k) :
    (stateAt P s pk = some x ∧ k = s) ∨
    (stateAt P s pk = none ∧ ∃ p, parentAt P s = some p ∧ NewestOn P pk p x k) := by
  cases h with
  | here h1 h2 => exact .inl ⟨by simp [stateAt, h1, h2], rfl⟩
  | up h1 h2 h3 h4 => exact .inr ⟨by simp [stateAt, h1, h2], _, by simp [parentAt, h1, h3], h4⟩

theorem newest_induct {P : ProcStore} {pk : Pubkey} {x : Processed} {k : Nat} {motive : Nat → Prop}
    (here : stateAt P k pk = some x → motive k)
    (up : ∀ s p, stateAt P s pk = none → parentAt P s = some p → NewestOn P pk p x k → motive p → motive s)
    {s : Nat} (h : NewestOn P pk s x k) : motive s := by
  induction h with
  | here h1 h2 => exact here (by simp [stateAt, h1, h2])
  | up h1 h2 h3 h4 ih => exact up _ _ (by simp [stateAt, h1, h2]) (by simp [parentAt, h1, h3]) h4 (ih here up)

theorem newest_fun {P : ProcStore} {pk : Pubkey} {s k k' : Nat} {x x' : Processed} (h : NewestOn P pk s x k)
    (h' : NewestOn P pk s x' k') : x = x' ∧ k = k' := by
  revert h'
  refine newest_induct (motive := fun s => NewestOn P pk s x' k' → x = x' ∧ k = k') ?_ ?_ h
  · intro h1 h'
    rcases newest_cases h' with ⟨a, b⟩ | ⟨a, -⟩
    · rw [h1] at a; simp at a; exact ⟨a, b.symm⟩
    · rw [h1] at a; simp at a
  · intro s p h1 h2 _ ih h'
    rcases newest_cases h' with ⟨a, b⟩ | ⟨a, q, hq, b⟩
    · rw [h1] at a; simp at a
    · rw [h2] at hq; simp at hq; subst hq; exact ih b

/-- Recorded parents are true parents. -/
def TrueIn (par : Nat → Nat) (P : ProcStore) : Prop := ∀ k p, parentAt P k = some p → p = par k ∧ p < k

theorem newest_ancestor {par : Nat → Nat} {P : ProcStore} (hp : TrueIn par P) {pk : Pubkey} {s k : Nat} {x : Processed}
    (h : NewestOn P pk s x k) : Ancestor par s k := by
  refine newest_induct (motive := fun s => Ancestor par s k) ?_ ?_ h
  · intro _; exact .here
  · intro s p _ h2 _ ih
    rw [(hp s p h2).1] at ih
    exact .up ih

/-- If the slots of the chain from `f` on look the same, so does the newest state found there. -/
theorem newest_transfer {par : Nat → Nat} {P P' : ProcStore} (hd : ∀ i, par i ≤ i) (hp : TrueIn par P) {pk : Pubkey} {f : Nat} {s k : Nat} {x : Processed}
    (hf : f ≤ k) (he : ∀ i, Ancestor par s i → f ≤ i → stateAt P' i pk = stateAt P i pk ∧
      ∀ p, parentAt P i = some p → parentAt P' i = some p) (h : NewestOn P pk s x k) : NewestOn P' pk s x k := by
  revert he
  refine newest_induct (motive := fun s => (∀ i, Ancestor par s i → f ≤ i → stateAt P' i pk = stateAt P i pk ∧
      ∀ p, parentAt P i = some p → parentAt P' i = some p) → NewestOn P' pk s x k) ?_ ?_ h
  · intro h1 he
    exact newest_here (by rw [(he k .here hf).1]; exact h1)
  · intro s p h1 h2 h3 ih he
    have hps := hp s p h2
    have hk : k ≤ p := anc_le hd (newest_ancestor hp h3)
    have e := he s .here (by omega)
    refine newest_up (by rw [e.1]; exact h1) (e.2 p h2) (ih fun i hi => he i ?_)
    rw [hps.1] at hi
    exact .up hi

/-- The newest state from `s` that is not above `f` is the newest one from `f`. -/
theorem newest_from {par : Nat → Nat} {P : ProcStore} (hd : ∀ i, par i ≤ i) (hp : TrueIn par P) {pk : Pubkey} {s k f : Nat} {x : Processed}
    (hf : Ancestor par s f) (hk : k ≤ f) (h : NewestOn P pk s x k) :
    NewestOn P pk f x k ∧ ∀ i, Ancestor par s i → f < i → stateAt P i pk = none := by
  revert hf
  refine newest_induct (motive := fun s => Ancestor par s f → NewestOn P pk f x k ∧
      ∀ i, Ancestor par s i → f < i → stateAt P i pk = none) ?_ ?_ h
  · intro h1 hf
    have := anc_le hd hf
    have : f = k := by omega
    subst this
    exact ⟨newest_here h1, fun i hi hlt => by have := anc_le hd hi; omega⟩
  · intro s p h1 h2 h3 ih hf
    have hps := hp s p h2
    by_cases hsf : f = s
    · subst hsf
      exact ⟨newest_up h1 h2 h3, fun i hi hlt => by have := anc_le hd hi; omega⟩
    · have hf' := anc_ne hf hsf
      rw [← hps.1] at hf'
      obtain ⟨i1, i2⟩ := ih hf'
      refine ⟨i1, fun i hi hlt => ?_⟩
      by_cases his : i = s
      · subst his; exact h1
      · have hi' := anc_ne hi his
        rw [← hps.1] at hi'
        exact i2 i hi' hlt

/-- A state found from an ancestor is found, or something newer, if the slots in between are linked. -/
theorem newest_extend {par : Nat → Nat} {P : ProcStore} {pk : Pubkey} {s k f : Nat} {x : Processed}
    (hf : Ancestor par s f) (hl : ∀ i, Ancestor par s i → Ancestor par i f → i ≠ f → parentAt P i = some (par i))
    (h : NewestOn P pk f x k) : ∃ x k, NewestOn P pk s x k := by
  induction hf with
  | here => exact ⟨x, k, h⟩
  | @up s f hf ih =>
    by_cases hsf : s = f
    · subst hsf; exact ⟨x, k, h⟩
    · obtain ⟨y, j, hy⟩ := ih (fun i hi h1 h2 => hl i (.up hi) h1 h2) h
      cases hst : stateAt P s pk with
      | some z => exact ⟨z, s, newest_here hst⟩
      | none => exact ⟨y, j, newest_up hst (hl s .here (.up hf) hsf) hy⟩


/-! ## What the calls do to the recorded states and parents -/

theorem parentAt_insertAccount (P : ProcStore) (pk : Pubkey) (x : ProgramAccount) (wv slot k : Nat) :
    parentAt (P.insertAccount pk x wv slot).2 k = parentAt P k := by
  unfold ProcStore.insertAccount parentAt
  cases hf : BMap.find P slot with
  | none =>
    simp only [BMap.find_insert]
    by_cases h : slot = k
    · subst h; simp [hf]
    · simp [h]
  | some e =>
    simp only
    split
    · split
      · simp only [BMap.find_insert]
        by_cases h : slot = k
        · subst h; simp [hf]
        · simp [h]
      · rfl
    · simp only [BMap.find_insert]
      by_cases h : slot = k
      · subst h; simp [hf]
      · simp [h]

theorem parentAt_updateSlotInfo (P : ProcStore) (info : SlotInfo) (k : Nat) :
    parentAt (P.updateSlotInfo info) k =
      if k = info.slot ∧ BMap.find P info.slot ≠ none then some info.parent else parentAt P k := by
  unfold ProcStore.updateSlotInfo parentAt
  cases hf : BMap.find P info.slot with
  | none =>
    simp only [BMap.find_insert]
    by_cases h : info.slot = k
    · subst h; simp [hf]
    · simp [h]
  | some e =>
    simp only [BMap.find_insert]
    by_cases h : info.slot = k
    · subst h; simp
    · have : ¬ k = info.slot := fun e => h e.symm
      simp [h, this]

theorem trueIn_of {par : Nat → Nat} {P : ProcStore} (h1 : ParentsIn (fun k p => p = par k) P) (h2 : ParentsIn (fun k p => p < k) P) :
    TrueIn par P := by
  intro k p h
  simp only [parentAt, Option.bind_eq_some_iff] at h
  obtain ⟨e, he, hp⟩ := h
  exact ⟨h1 k e p he hp, h2 k e p he hp⟩

theorem trueIn_updateSlotInfo {par : Nat → Nat} {P : ProcStore} (h : TrueIn par P) {info : SlotInfo}
    (hi : info.parent = par info.slot ∧ info.parent < info.slot) : TrueIn par (P.updateSlotInfo info) := by
  intro k p hp
  rw [parentAt_updateSlotInfo] at hp
  split at hp
  · rename_i hk
    simp at hp; subst hp; rw [hk.1]; exact hi
  · exact h k p hp

/-! ## What is reported -/

theorem toSolanaAll_mem {mints : AMap Nat MintAccount} {l : List (Processed × Nat)} {ns : List AccountData}
    (h : toSolanaAll mints l = .ok ns) (r : AccountData) :
    r ∈ ns ↔ ∃ x k, (x, k) ∈ l ∧ x.account.toSolana mints k x.wv = .ok (some r) := by
  induction l generalizing ns with
  | nil => simp [toSolanaAll] at h; subst h; simp
  | cons y l ih =>
    obtain ⟨x, k⟩ := y
    simp only [toSolanaAll, Run.bind_eq_ok, Run.pure_eq, Run.ok.injEq] at h
    obtain ⟨o, ho, rs, hrs, rfl⟩ := h
    simp only [List.mem_append, Option.mem_toList, ih hrs, List.mem_cons, Prod.mk.injEq]
    constructor
    · rintro (h | ⟨y, j, hy, hj⟩)
      · exact ⟨x, k, .inl ⟨rfl, rfl⟩, by rw [ho, h]⟩
      · exact ⟨y, j, .inr hy, hj⟩
    · rintro ⟨y, j, ⟨rfl, rfl⟩ | hy, hj⟩
      · rw [ho] at hj; simp at hj; exact .inl hj
      · exact .inr ⟨y, j, hy, hj⟩

theorem toSolana_key {mints : AMap Nat MintAccount} {x : ProgramAccount} {k wv : Nat} {r : AccountData}
    (h : x.toSolana mints k wv = .ok (some r)) : r.pubkey = x.pubkey := by
  cases x with
  | token t =>
    simp only [ProgramAccount.toSolana, tokenToSolana] at h
    split at h
    · simp at h
    · simp only [Run.bind_eq_ok, Run.pure_eq, Run.ok.injEq, Option.some.injEq] at h
      obtain ⟨_, -, rfl⟩ := h; rfl
  | mint m => simp [ProgramAccount.toSolana] at h; subst h; rfl
  | multisig m pk =>
    simp only [ProgramAccount.toSolana, Run.bind_eq_ok, Run.pure_eq, Run.ok.injEq, Option.some.injEq] at h
    obtain ⟨_, h, rfl⟩ := h
    simp only [multisigToSolana, Run.bind_eq_ok, Run.pure_eq, Run.ok.injEq] at h
    obtain ⟨_, -, rfl⟩ := h; rfl
  | deleted pk => simp [ProgramAccount.toSolana] at h

theorem toSolanaAll_nodup {mints : AMap Nat MintAccount} {l : List (Processed × Nat)} {ns : List AccountData}
    (h : toSolanaAll mints l = .ok ns) (hl : (l.map (fun e => e.1.account.pubkey)).Nodup) : (ns.map (·.pubkey)).Nodup := by
  induction l generalizing ns with
  | nil => simp [toSolanaAll] at h; subst h; simp
  | cons y l ih =>
    obtain ⟨x, k⟩ := y
    have h0 := h
    simp only [toSolanaAll, Run.bind_eq_ok, Run.pure_eq, Run.ok.injEq] at h
    obtain ⟨o, ho, rs, hrs, rfl⟩ := h
    simp only [List.map_cons, List.nodup_cons] at hl
    have hr := ih hrs hl.2
    cases o with
    | none => simpa using hr
    | some r =>
      simp only [Option.toList_some, List.cons_append, List.nil_append, List.map_cons, List.nodup_cons]
      refine ⟨fun hm => hl.1 ?_, hr⟩
      simp only [List.mem_map] at hm ⊢
      obtain ⟨r', hm, he⟩ := hm
      obtain ⟨y, j, hy, hj⟩ := (toSolanaAll_mem hrs r').1 hm
      exact ⟨(y, j), hy, by rw [← toSolana_key hj, he, toSolana_key ho]⟩

theorem learn_other {v : TokenHeard} {ns : List AccountData} {pk : Pubkey} (h : ∀ r ∈ ns, r.pubkey ≠ pk) : tokenLearn v ns pk = v pk := by
  induction ns generalizing v with
  | nil => rfl
  | cons a l ih =>
    simp only [tokenLearn]
    rw [ih (fun r hr => h r (by simp [hr])), if_neg]
    exact fun e => h a (by simp) e.symm

theorem learn_mem {v : TokenHeard} {ns : List AccountData} {r : AccountData} (hn : (ns.map (·.pubkey)).Nodup) (h : r ∈ ns) :
    tokenLearn v ns r.pubkey = some r.account := by
  induction ns generalizing v with
  | nil => simp at h
  | cons a l ih =>
    simp only [List.map_cons, List.nodup_cons] at hn
    simp only [tokenLearn]
    simp only [List.mem_cons] at h
    rcases h with rfl | h
    · rw [learn_other]
      · simp
      · intro b hb e
        exact hn.1 (List.mem_map.2 ⟨b, hb, e⟩)
    · exact ih hn.2 h

/-! ## Facts about the reached states -/

/-- What is known of a reached store, for a key that is only ever a token account and never closed. -/
structure Good (par : Nat → Nat) (pk : Pubkey) (s : TokenStore) : Prop where
  multi : s.multisigs.find pk = none
  index : s.table.index.find pk = none
  sorted : BMap.Sorted s.processed
  links : TrueIn par s.processed
  below : ParentsBelow s.processed
  token : ∀ k y, stateAt s.processed k pk = some y → ∃ t, y.account = .token t ∧ t.isDeleted = false ∧ t.pubkey = pk
  live : ∃ slots orig n, Inv (fun _ => True) n s slots orig

theorem good_of {X : Codecs} {par : Nat → Nat} {pk : Pubkey} {ops : List TOp} {s : TokenStore} (hn : ops.length < 2 ^ 31)
    (hp : TrueParents par ops) (ho : OnlyToken X pk ops) (hc : NeverClosed X pk ops)
    (hr : TokenStore.run X ops .empty = .ok s) : Good par pk s := by
  obtain ⟨h1, h2, h3⟩ := stream_only ops hn ho hr
  obtain ⟨hs, hp1⟩ := parents_of (R := fun k p => p < k) (fun σ info c h => (hp σ info c h).2) hr
  obtain ⟨-, hp2⟩ := parents_of (R := fun k p => p = par k) (fun σ info c h => (hp σ info c h).1) hr
  obtain ⟨slots, orig, inv⟩ := reach_inv hn hr
  obtain ⟨slots', orig', inv'⟩ := run_inv (X := X) (Q := fun x => x ≠ .deleted pk) ops (inv_empty _) (by simpa using hn) (by
    intro o hm a ha T x T' hx e
    rw [account_eq] at ha
    subst e
    have hk := (classify_some hx).1
    simp only [ProgramAccount.pubkey] at hk
    exact hc o hm a ha hk.symm T T' hx) hr
  refine ⟨h1, h2, hs, trueIn_of hp2 hp1, hp1, ?_, slots, orig, _, inv⟩
  intro k y hy
  have hy0 := hy
  simp only [stateAt, Option.bind_eq_some_iff] at hy
  obtain ⟨e, he, hx⟩ := hy
  have hg := inv'.proc.good k e pk y he hx
  have hkey := inv'.proc.key k e pk y he hx
  rcases h3 k y hy0 with ⟨t, ht⟩ | hd
  · refine ⟨t, ht, ?_, by rw [ht] at hkey; exact hkey⟩
    have := hg.1
    rw [ht] at this
    exact this.2
  · exact absurd hd hg.2.1

/-- The token account that reads at commitment `c` show. -/
def Cur (c : Commitment) (s : TokenStore) (pk : Pubkey) (o : Option TokenAccount) : Prop :=
  match c with
  | .confirmed => (∃ x k t, NewestOn s.processed pk s.confirmedSlot x k ∧ x.account = .token t ∧ o = some t) ∨
    ((∀ x k, ¬ NewestOn s.processed pk s.confirmedSlot x k) ∧ s.tokens.getByPubkey pk = .ok o)
  | _ => s.tokens.getByPubkey pk = .ok o

theorem stored_live {par : Nat → Nat} {pk : Pubkey} {s : TokenStore} (h : Good par pk s) {t : TokenAccount}
    (ht : s.tokens.getByPubkey pk = .ok (some t)) : s.getFinalized pk = tokenToSolana s.mints t s.finalizedSlot 0 ∧ t.isDeleted = false := by
  obtain ⟨slots, orig, n, inv⟩ := h.live
  rw [getByPubkey_recOf inv.fin] at ht
  simp only [Run.ok.injEq] at ht
  exact (getFinalized_eq inv.fin pk).2.2.2.1 h.multi (by simp [recOf, h.index]) t ht

theorem cur_exists {par : Nat → Nat} {pk : Pubkey} {s : TokenStore} (h : Good par pk s) (c : Commitment) : ∃ o, Cur c s pk o := by
  obtain ⟨slots, orig, n, inv⟩ := h.live
  have hg := getByPubkey_recOf inv.fin pk
  cases c with
  | confirmed =>
    by_cases hx : ∃ x k, NewestOn s.processed pk s.confirmedSlot x k
    · obtain ⟨x, k, hx⟩ := hx
      obtain ⟨t, ht, -⟩ := h.token k x (newestOn_state hx)
      exact ⟨some t, .inl ⟨x, k, t, hx, ht, rfl⟩⟩
    · exact ⟨_, .inr ⟨fun x k hn => hx ⟨x, k, hn⟩, hg⟩⟩
  | processed => exact ⟨_, hg⟩
  | finalized => exact ⟨_, hg⟩

theorem cur_read {par : Nat → Nat} {pk : Pubkey} {s : TokenStore} (h : Good par pk s) {c : Commitment} (hc : c ≠ .processed) :
    (Cur c s pk none → s.getAccount pk c = .ok none) ∧
    ∀ t, Cur c s pk (some t) → t.isDeleted = false ∧ ∃ k, s.getAccount pk c = tokenToSolana s.mints t k 0 := by
  obtain ⟨slots, orig, n, inv⟩ := h.live
  have hnone : s.tokens.getByPubkey pk = .ok none → s.getFinalized pk = .ok none := by
    intro ht
    rw [getByPubkey_recOf inv.fin] at ht
    simp only [Run.ok.injEq] at ht
    exact (getFinalized_eq inv.fin pk).2.2.2.2 h.multi (by simp [recOf, h.index]) ht
  cases c with
  | processed => exact absurd rfl hc
  | finalized =>
    exact ⟨hnone, fun t ht => ⟨(stored_live h ht).2, _, (stored_live h ht).1⟩⟩
  | confirmed =>
    obtain ⟨r, hr⟩ := getAccounts_total h.below [pk] (c := .confirmed) (by simp) s.confirmedSlot
    obtain ⟨g1, g2⟩ := getAccount_eq h.sorted pk (c := .confirmed) (by simp) hr
    constructor
    · rintro (⟨x, k, t, -, -, h⟩ | ⟨h1, h2⟩)
      · simp at h
      · rw [g2 h1]; exact hnone h2
    · rintro t (⟨x, k, t', h1, h2, h3⟩ | ⟨h1, h2⟩)
      · simp only [Option.some.injEq] at h3; subst h3
        obtain ⟨t', h4, h5, -⟩ := h.token k x (newestOn_state h1)
        rw [h2] at h4; simp at h4; subst h4
        exact ⟨h5, k, by rw [g1 x k h1, h2]; rfl⟩
      · exact ⟨(stored_live h h2).2, _, by rw [g2 h1]; exact (stored_live h h2).1⟩

end Listen
end LAM.Token
