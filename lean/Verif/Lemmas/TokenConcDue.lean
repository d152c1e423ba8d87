import Verif.Lemmas.TokenConcAnswers
import Verif.Lemmas.TokenStoreHist
import Verif.Spec.TokenConcDue
/-!
# Concurrent calls of the token program store: accepted updates are reported and read
-/
namespace LAM.TokConc
open Token Run Spec ProcStore
open Spl (tokenId token2022Id)

/-! ## Logs that grow -/

theorem accepted_snoc {log : List (Nat × Event)} {t : Nat} {v : Event} {a : AccountData} (h : Accepted (log ++ [(t, v)]) a) :
    Accepted log a ∨ (v = .ret (.updated true) ∧ ∃ c, LastCall log t (.submit a (some c)) ∧ c ≠ .finalized) := by
  obtain ⟨pre, post, u, c, he, hk, hc⟩ := h
  rcases List.eq_nil_or_concat post with rfl | ⟨post', e, rfl⟩
  · have h6 := List.append_inj' he rfl
    simp only [List.cons.injEq, Prod.mk.injEq, and_true] at h6
    obtain ⟨rfl, rfl, rfl⟩ := h6
    exact .inr ⟨rfl, c, hk, hc⟩
  · have h6 : log ++ [(t, v)] = (pre ++ (u, .ret (.updated true)) :: post') ++ [e] := by simpa using he
    exact .inl ⟨pre, post', u, c, (List.append_inj' h6 rfl).1, hk, hc⟩

theorem Accepted.mono {log log' : List (Nat × Event)} (h : log <+: log') {a : AccountData} (ha : Accepted log a) : Accepted log' a := by
  obtain ⟨l, rfl⟩ := h
  obtain ⟨pre, post, t, c, rfl, hk, hc⟩ := ha
  exact ⟨pre, post ++ l, t, c, by simp, hk, hc⟩

theorem Kept.anti {log log' : List (Nat × Event)} (h : log <+: log') {k : Nat} (hk : Kept log' k) : Kept log k :=
  fun n hn => ⟨(hk n (hn.mono h)).1, fun hu => (hk n (hn.mono h)).2 (hu.mono h)⟩

theorem AsNew.mono {log log' : List (Nat × Event)} (h : log <+: log') {a a' : AccountData} (ha : AsNew log a a') : AsNew log' a a' :=
  ⟨ha.1.mono h, ha.2⟩

theorem Unconfirmed.anti {log log' : List (Nat × Event)} (h : log <+: log') {k : Nat} (hk : Unconfirmed log' k) : Unconfirmed log k :=
  fun n hn => hk n (hn.mono h)

theorem NoLater.anti {log log' : List (Nat × Event)} (h : log <+: log') {k : Nat} (hk : NoLater log' k) : NoLater log k :=
  fun n hn => hk n (hn.mono h)

/-- Thread `t` is executing the call `k`, which was made when `P` held of the log. -/
def Since (log : List (Nat × Event)) (t : Nat) (k : Call) (P : List (Nat × Event) → Prop) : Prop :=
  ∃ pre mid, log = pre ++ (t, .call k) :: mid ∧ (∀ e ∈ mid, e.1 ≠ t) ∧ P pre

theorem Since.lastCall {log : List (Nat × Event)} {t : Nat} {k : Call} {P : List (Nat × Event) → Prop} (h : Since log t k P) :
    LastCall log t k := by
  obtain ⟨pre, mid, h1, h2, -⟩ := h
  exact ⟨pre, mid, h1, h2⟩

theorem since_snoc {log : List (Nat × Event)} {t x : Nat} {k : Call} {v : Event} {P : List (Nat × Event) → Prop}
    (h : Since (log ++ [(x, v)]) t k P) : (x = t ∧ v = .call k ∧ P log) ∨ (x ≠ t ∧ Since log t k P) := by
  obtain ⟨pre, mid, h1, h2, h3⟩ := h
  rcases List.eq_nil_or_concat mid with rfl | ⟨mid', e, rfl⟩
  · have h6 := List.append_inj' h1 rfl
    simp only [List.cons.injEq, Prod.mk.injEq, and_true] at h6
    obtain ⟨rfl, rfl, rfl⟩ := h6
    exact .inl ⟨rfl, rfl, h3⟩
  · have h6 : log ++ [(x, v)] = (pre ++ (t, .call k) :: mid') ++ [e] := by simpa using h1
    obtain ⟨h7, h8⟩ := List.append_inj' h6 rfl
    simp only [List.cons.injEq, and_true] at h8
    subst h8
    exact .inr ⟨h2 (x, v) (by simp), pre, mid', h7, fun e he => h2 e (by simp [he]), h3⟩

theorem Since.prefix {log : List (Nat × Event)} {t : Nat} {k : Call} {P : List (Nat × Event) → Prop} (h : Since log t k P) :
    ∃ pre, pre <+: log ∧ P pre := by
  obtain ⟨pre, mid, rfl, -, h3⟩ := h
  exact ⟨pre, List.prefix_append _ _, h3⟩

/-! ## What steps do to the unfinalized states -/

theorem stateAt_updateSlotInfo (P : ProcStore) (info : SlotInfo) (k : Nat) (pk : Pubkey) :
    stateAt (P.updateSlotInfo info) k pk = stateAt P k pk := by
  unfold ProcStore.updateSlotInfo stateAt
  split
  · rename_i e hf
    rw [BMap.find_insert]
    split
    · rename_i h; subst h; simp [hf]
    · rfl
  · rename_i hf
    rw [BMap.find_insert]
    split
    · rename_i h; subst h; simp [hf, AMap.find]
    · rfl

/-- Unfinalized states are written by these steps only. -/
theorem out_states {E : Env} {σ : Orders} {s s' : TokenStore} {p : Pc} {n : Next} (h : Out E σ s p s' n) :
    s'.processed = s.processed ∨ (∃ info, s'.processed = s.processed.updateSlotInfo info) ∨
      (∃ a x, p = .insert a x ∧ s'.processed = (s.processed.insertAccount a.pubkey x a.wv a.slot).2 ∧
        n = .ret (.updated (s.processed.insertAccount a.pubkey x a.wv a.slot).1)) ∨
      ∃ info l, p = .psFinalize info ∧ s.processed.finalize info.slot = .ok (s'.processed, l) := by
  cases h
  case insert a x => exact .inr (.inr (.inl ⟨a, x, rfl, rfl, rfl⟩))
  case psProcessed info => exact .inr (.inl ⟨info, rfl⟩)
  case updateFinal info => exact .inr (.inl ⟨info, rfl⟩)
  case update info c hc => exact .inr (.inl ⟨info, rfl⟩)
  case missing info => exact .inr (.inl ⟨info, rfl⟩)
  case finalize info P l hf => exact .inr (.inr (.inr ⟨info, l, rfl, hf⟩))
  all_goals exact .inl rfl

theorem insertAccount_true {P : ProcStore} {pk : Pubkey} {x : ProgramAccount} {wv slot : Nat}
    (h : (P.insertAccount pk x wv slot).1 = true) : stateAt (P.insertAccount pk x wv slot).2 slot pk = some ⟨x, wv⟩ := by
  rw [stateAt_insertAccount]
  simp only [and_self, if_true]
  unfold ProcStore.insertAccount at h
  unfold stateAt
  cases hf : BMap.find P slot with
  | none => simp
  | some e =>
    rw [hf] at h
    simp only [Option.bind_some]
    cases hx : e.accounts.find pk with
    | none => simp
    | some old =>
      simp only [hx] at h
      split at h
      · rename_i hlt; simp [hlt]
      · simp at h

theorem insertAccount_keeps {P : ProcStore} {pk pk' : Pubkey} {x : ProgramAccount} {wv slot k v : Nat} {y : Processed}
    (h : stateAt P k pk = some y) (hv : v ≤ y.wv) : ∃ y', stateAt (P.insertAccount pk' x wv slot).2 k pk = some y' ∧ v ≤ y'.wv := by
  rw [stateAt_insertAccount, h]
  split
  · simp only
    split
    · exact ⟨_, rfl, by simp only; omega⟩
    · exact ⟨_, rfl, hv⟩
  · exact ⟨_, rfl, hv⟩

/-- The chain that is finalized consists of notified ancestors. -/
theorem SlotsOK.onChain {log : List (Nat × Event)} {cs fs : Nat} {P : ProcStore} (hs : SlotsOK log cs fs P) {n k m : Nat}
    (hm : Up log m n) (h : OnChain P n k) : Up log m k := by
  induction h with
  | here => exact hm
  | up h1 h2 _ ih =>
    obtain ⟨t, info, c, hi, rfl, rfl⟩ := hs.parents _ _ _ h1 h2
    exact ih (.parent hm hi)

/-- A state stays as new as it is until its slot is finalized or overtaken. -/
theorem out_keeps {E : Env} {log : List (Nat × Event)} {g : List Pubkey} {σ : Orders} {s s' : TokenStore} {p : Pc} {n : Next} {k : Call}
    {m : Nat} (hs : StoreOK E.codecs log g s) (hv : Serves E.codecs log g m k p) (h : Out E σ s p s' n) {a : AccountData}
    (hk : Kept log a.slot) {x : Processed} (hx : stateAt s.processed a.slot a.pubkey = some x) (hw : a.wv ≤ x.wv) :
    ∃ x', stateAt s'.processed a.slot a.pubkey = some x' ∧ a.wv ≤ x'.wv := by
  rcases out_states h with h1 | ⟨info, h1⟩ | ⟨b, y, -, h1, -⟩ | ⟨info, l, rfl, h1⟩
  · rw [h1]; exact ⟨x, hx, hw⟩
  · rw [h1, stateAt_updateSlotInfo]; exact ⟨x, hx, hw⟩
  · rw [h1]; exact insertAccount_keeps hx hw
  · obtain ⟨P, l', h2, -, -, -, -, h3⟩ := finalize_spec hs.proc info.slot
    rw [h1] at h2
    simp only [Run.ok.injEq, Prod.mk.injEq] at h2
    obtain ⟨e1, -⟩ := h2
    cases hv with
    | psFinalize hc =>
      obtain ⟨t, hc⟩ := hc
      obtain ⟨h4, h5⟩ := hk info.slot ⟨t, info, hc, rfl⟩
      refine ⟨x, ?_, hw⟩
      unfold stateAt
      rw [e1, (h3 a.slot).2]
      · exact hx
      · rintro (h6 | h6)
        · omega
        · exact h5 (hs.slots.onChain .self h6)

/-! ## Updates -/

/-- A thread at this program counter executes this unfinalized update. -/
def SubmitPc (a : AccountData) (c : Commitment) : Pc → Prop
  | .chkIndex b d | .chkMultisig b d | .chkBucket b d | .chkAccounts b d | .classify b d => b = a ∧ d = some c
  | .insert b _ => b = a
  | .loops _ => True
  | _ => False

theorem submit_out {E : Env} {σ : Orders} {s s' : TokenStore} {p : Pc} {n : Next} {a : AccountData} {c : Commitment}
    (hc : c ≠ .finalized) (hp : SubmitPc a c p) (h : Out E σ s p s' n) :
    (∃ q, n = .go q ∧ SubmitPc a c q) ∨ n = .ret (.updated false) ∨
      ∃ x, s'.processed = (s.processed.insertAccount a.pubkey x a.wv a.slot).2 ∧
        n = .ret (.updated (s.processed.insertAccount a.pubkey x a.wv a.slot).1) := by
  cases h <;> simp only [SubmitPc] at hp
  case insert b x => subst hp; exact .inr (.inr ⟨x, rfl, rfl⟩)
  case classifyA b d x T h1 h2 =>
    obtain ⟨rfl, rfl⟩ := hp
    cases c <;> simp_all
  all_goals first
    | exact .inr (.inl rfl)
    | (obtain ⟨rfl, rfl⟩ := hp; exact .inl ⟨_, rfl, rfl, rfl⟩)
    | (obtain ⟨rfl, rfl⟩ := hp; exact .inl ⟨_, rfl, rfl⟩)

/-! ## Conversions -/

theorem From.key {X : Codecs} {g : List Pubkey} {S : AccountData → Prop} {x : ProgramAccount} (h : From X g S x) :
    From X g (fun a => S a ∧ a.pubkey = x.pubkey) x := by
  cases h with
  | token h1 h2 h3 h4 h5 h6 h7 h8 h9 => exact .token ⟨h1, h7.symm⟩ h2 h3 h4 h5 h6 h7 h8 h9
  | mint h1 h2 h3 h4 h5 h6 h7 => exact .mint ⟨h1, h6.symm⟩ h2 h3 h4 h5 h6 h7
  | multisig h1 h2 h3 h4 h5 h6 h7 => exact .multisig ⟨h1, rfl⟩ h2 h3 h4 h5 h6 h7
  | deleted h1 h2 => exact .deleted ⟨h1, rfl⟩ h2

/-- What is converted is shown, unless it is gone. -/
theorem conv_due {X : Codecs} {log : List (Nat × Event)} {g : List Pubkey} (hg : g.length ≤ 2 ^ 32) {s : TokenStore}
    (hs : StoreOK X log g s) {S : AccountData → Prop} {x : ProgramAccount} {slot wv : Nat} (h : From X g S x) {r : Option AccountData}
    (hr : x.toSolana s.mints slot wv = .ok r) :
    (∃ b, r = some b ∧ Stems X S b ∧ b.pubkey = x.pubkey ∧ b.slot = slot ∧ b.wv = wv) ∨ (r = none ∧ ∃ a, S a ∧ Gone a) := by
  cases r with
  | some b =>
    obtain ⟨h1, h2, h3, h4⟩ := back hg h hs.mintKeys hr
    exact .inl ⟨b, rfl, h1, h2, h3, h4⟩
  | none =>
    refine .inr ⟨rfl, ?_⟩
    cases h with
    | token h1 h2 h3 h4 h5 h6 h7 h8 h9 =>
      exfalso
      rename_i t
      simp only [ProgramAccount.toSolana, tokenToSolana, h6.live] at hr
      cases hm : s.mints.find t.mint <;> simp [hm, Run.unwrap] at hr
    | mint => simp [ProgramAccount.toSolana] at hr
    | multisig h1 h2 h3 h4 h5 h6 =>
      exfalso
      simp only [ProgramAccount.toSolana] at hr
      generalize multisigToSolana _ _ slot wv = r at hr
      cases r <;> simp at hr
    | deleted h1 h2 => exact ⟨_, h1, h2⟩

/-! ## Reports -/

/-- A report shows a state as new as `a`, or one as new as `a` is gone. -/
def DueOut (X : Codecs) (log : List (Nat × Event)) (a : AccountData) (out : List AccountData) : Prop :=
  (∃ b ∈ out, b.pubkey = a.pubkey ∧ Stems X (fun a' => AsNew log a a' ∧ a'.slot = b.slot ∧ a'.wv = b.wv) b) ∨
    ∃ a', AsNew log a a' ∧ a'.slot = a.slot ∧ Gone a'

/-- A thread at this program counter will report a state as new as `a`. -/
def RepPc (X : Codecs) (log : List (Nat × Event)) (g : List Pubkey) (a : AccountData) : Pc → Prop
  | .psStart info c | .psUpdate info c => c = .confirmed ∧ info.slot = a.slot
  | .psConfirm info | .psReport info => info.slot = a.slot
  | .convert items out .confirmed =>
      (∃ x wv, Item.conv x a.slot wv ∈ items ∧ x.pubkey = a.pubkey ∧
        From X g (fun a' => AsNew log a a' ∧ a'.slot = a.slot ∧ a'.wv = wv) x) ∨ DueOut X log a out
  | .loops _ => True
  | _ => False

theorem DueOut.mono {X : Codecs} {log log' : List (Nat × Event)} (hl : log <+: log') {a : AccountData} {out : List AccountData}
    (h : DueOut X log a out) : DueOut X log' a out := by
  rcases h with ⟨b, h1, h2, h3⟩ | ⟨a', h1, h2⟩
  · exact .inl ⟨b, h1, h2, h3.mono fun a' h => ⟨h.1.mono hl, h.2⟩⟩
  · exact .inr ⟨a', h1.mono hl, h2⟩

theorem RepPc.mono {X : Codecs} {log log' : List (Nat × Event)} (hl : log <+: log') {g g' : List Pubkey} (hg : g <+: g')
    {a : AccountData} {p : Pc} (h : RepPc X log g a p) : RepPc X log' g' a p := by
  cases p with
  | convert items out j =>
    cases j with
    | confirmed =>
      rcases h with ⟨x, wv, h1, h2, h3⟩ | h
      · exact .inl ⟨x, wv, h1, h2, h3.mono hg fun a' h => ⟨h.1.mono hl, h.2⟩⟩
      · exact .inr (h.mono hl)
    | _ => exact h
  | _ => exact h

theorem rep_out {E : Env} {log : List (Nat × Event)} {g : List Pubkey} (hg : g.length ≤ 2 ^ 32) {σ : Orders} {s s' : TokenStore}
    (hs : StoreOK E.codecs log g s) {p : Pc} {n : Next} {a : AccountData} {y : Processed}
    (hy : stateAt s.processed a.slot a.pubkey = some y) (hw : a.wv ≤ y.wv) (hp : RepPc E.codecs log g a p) (h : Out E σ s p s' n) :
    (∃ q, n = .go q ∧ RepPc E.codecs log g a q) ∨ ∃ l, n = .ret (.reported l) ∧ DueOut E.codecs log a l := by
  cases h <;> try exact hp.elim
  case convertEnd out j =>
    cases j <;> try exact hp.elim
    rcases hp with ⟨x, wv, h1, -⟩ | hp
    · simp at h1
    · exact .inr ⟨out, rfl, hp⟩
  case keep b l out j =>
    cases j <;> try exact hp.elim
    refine .inl ⟨_, rfl, ?_⟩
    rcases hp with ⟨x, wv, h1, h2⟩ | ⟨b', h1, h2⟩ | hp
    · exact .inl ⟨x, wv, by simpa using h1, h2⟩
    · exact .inr (.inl ⟨b', by simp [h1], h2⟩)
    · exact .inr (.inr hp)
  case conv x slot wv l out j r hr =>
    cases j <;> try exact hp.elim
    refine .inl ⟨_, rfl, ?_⟩
    rcases hp with ⟨x', wv', h1, h2, h3⟩ | ⟨b', h1, h2⟩ | hp
    · rcases List.mem_cons.1 h1 with h1 | h1
      · simp only [Item.conv.injEq] at h1
        obtain ⟨rfl, rfl, rfl⟩ := h1
        rcases conv_due hg hs h3 hr with ⟨b, rfl, h4, h5, h6, h7⟩ | ⟨-, a', h4, h5⟩
        · exact .inr (.inl ⟨b, by simp, h5.trans h2, h6.symm ▸ h7.symm ▸ h4⟩)
        · exact .inr (.inr ⟨a', h4.1, h4.2.1, h5⟩)
      · exact .inl ⟨x', wv', h1, h2, h3⟩
    · exact .inr (.inl ⟨b', by simp [h1], h2⟩)
    · exact .inr (.inr hp)
  case psProcessed info => exact absurd hp.1 (by simp)
  case psFinal info => exact absurd hp.1 (by simp)
  case psNoFinal info => exact absurd hp.1 (by simp)
  case updateFinal info => exact absurd hp.1 (by simp)
  case psConfirm info h => exact .inl ⟨_, rfl, hp.2⟩
  case psNoConfirm info h => exact .inl ⟨_, rfl, hp.2⟩
  case confirm info => exact .inl ⟨_, rfl, rfl, hp⟩
  case update info c hc => exact .inl ⟨_, rfl, hp.2⟩
  case reportNone info hf =>
    have hp : info.slot = a.slot := hp
    rw [hp] at hf
    simp [stateAt, hf] at hy
  case report info e hf =>
    have hp : info.slot = a.slot := hp
    rw [hp] at hf
    have hx : e.accounts.find a.pubkey = some y := by simpa [stateAt, hf] using hy
    have hk := hs.proc.key _ _ _ _ hf hx
    refine .inl ⟨_, rfl, .inl ⟨y.account, y.wv, ?_, hk, ?_⟩⟩
    · rw [hp]
      exact List.mem_map.2 ⟨(a.pubkey, y), AMap.mem_of_find hx, rfl⟩
    · exact (hs.procFrom _ _ _ _ hf hx).key.mono (List.prefix_refl _) fun a' h =>
        ⟨⟨h.1.1, h.2.trans hk, .inr ⟨h.1.2.1, by rw [h.1.2.2]; exact hw⟩⟩, h.1.2⟩

/-! ## Reads -/

/-- A thread at this program counter will show a state as new as `a`. -/
def ReadPc (X : Codecs) (log : List (Nat × Event)) (g : List Pubkey) (a : AccountData) (c : Commitment) : Pc → Prop
  | .scanSlot c' (.one pk) => c' = c ∧ pk = a.pubkey
  | .scan c' n (.one pk) => c' = c ∧ pk = a.pubkey ∧ (c = .processed ∧ n < a.slot ∨ c = .confirmed ∧ n = a.slot)
  | .convert [.conv x slot _] [] .one => x.pubkey = a.pubkey ∧ From X g (fun a' => AsNew log a a' ∧ a'.slot = slot) x
  | .convert [] out .one => ShowsAsNew X log a out.head?
  | .loops _ => True
  | _ => False

theorem ShowsAsNew.mono {X : Codecs} {log log' : List (Nat × Event)} (hl : log <+: log') {a : AccountData} {o : Option AccountData}
    (h : ShowsAsNew X log a o) : ShowsAsNew X log' a o := by
  rcases h with ⟨b, h1, h2, h3⟩ | ⟨h1, a', h2, h3⟩
  · exact .inl ⟨b, h1, h2, h3.mono fun a' h => ⟨h.1.mono hl, h.2⟩⟩
  · exact .inr ⟨h1, a', h2.mono hl, h3⟩

theorem ReadPc.mono {X : Codecs} {log log' : List (Nat × Event)} (hl : log <+: log') {g g' : List Pubkey} (hg : g <+: g')
    {a : AccountData} {c : Commitment} {p : Pc} (h : ReadPc X log g a c p) : ReadPc X log' g' a c p := by
  unfold ReadPc at h ⊢
  split at h <;> try exact h
  · exact ⟨h.1, h.2.mono hg fun a' h => ⟨h.1.mono hl, h.2⟩⟩
  · exact ShowsAsNew.mono hl h

/-- The newest slot above the confirmed one that has a state of the account. -/
theorem scan_newest {pk : Pubkey} {n k : Nat} {e : BySlot} {x : Processed} (hn : n < k) (hx : e.accounts.find pk = some x)
    (l : List (Nat × BySlot)) (hl : l.Pairwise (fun u v => v.1 < u.1)) (hm : (k, e) ∈ l) :
    ∃ k' e' x', scanProcessed [pk] n l [none] = ([some (x', k')], false) ∧ (k', e') ∈ l ∧ e'.accounts.find pk = some x' ∧
      (k < k' ∨ (k' = k ∧ x' = x)) := by
  induction l with
  | nil => simp at hm
  | cons d l ih =>
    obtain ⟨slot, d⟩ := d
    rw [List.pairwise_cons] at hl
    have hlt : n < slot := by
      rcases List.mem_cons.1 hm with h | h
      · simp only [Prod.mk.injEq] at h; omega
      · have := hl.1 _ h; simp only at this; omega
    simp only [scanProcessed, hlt, if_true]
    cases hd : d.accounts.find pk with
    | some y =>
      refine ⟨slot, d, y, by simp [ProcStore.fill, hd], by simp, hd, ?_⟩
      rcases List.mem_cons.1 hm with h | h
      · simp only [Prod.mk.injEq] at h
        obtain ⟨rfl, rfl⟩ := h
        rw [hx] at hd
        exact .inr ⟨rfl, (Option.some.inj hd).symm⟩
      · exact .inl (hl.1 _ h)
    | none =>
      rcases List.mem_cons.1 hm with h | h
      · simp only [Prod.mk.injEq] at h
        obtain ⟨rfl, rfl⟩ := h
        rw [hx] at hd; simp at hd
      · obtain ⟨k', e', x', h1, h2, h3, h4⟩ := ih hl.2 h
        exact ⟨k', e', x', by simpa [ProcStore.fill, hd] using h1, by simp [h2], h3, h4⟩

theorem read_out {E : Env} {log : List (Nat × Event)} {g : List Pubkey} (hg : g.length ≤ 2 ^ 32) {σ : Orders} {s s' : TokenStore}
    (hs : StoreOK E.codecs log g s) {p : Pc} {n : Next} {a : AccountData} {c : Commitment} {y : Processed}
    (hy : stateAt s.processed a.slot a.pubkey = some y) (hw : a.wv ≤ y.wv)
    (hc : c = .processed ∧ s.confirmedSlot < a.slot ∨ c = .confirmed ∧ s.confirmedSlot = a.slot)
    (hp : ReadPc E.codecs log g a c p) (h : Out E σ s p s' n) :
    (∃ q, n = .go q ∧ ReadPc E.codecs log g a c q) ∨ ∃ o, n = .ret (.account o) ∧ ShowsAsNew E.codecs log a o := by
  obtain ⟨e, he, hx⟩ : ∃ e, BMap.find s.processed a.slot = some e ∧ e.accounts.find a.pubkey = some y := by
    simpa [stateAt, Option.bind_eq_some_iff] using hy
  -- a state that was found
  have found : ∀ k e' x', BMap.find s.processed k = some e' → e'.accounts.find a.pubkey = some x' →
      (a.slot < k ∨ (k = a.slot ∧ x' = y)) → ReadPc E.codecs log g a c (.convert [.conv x'.account k 0] [] .one) := by
    intro k e' x' h1 h2 h3
    have hk := hs.proc.key _ _ _ _ h1 h2
    refine ⟨hk, (hs.procFrom _ _ _ _ h1 h2).key.mono (List.prefix_refl _) fun a' h => ⟨⟨h.1.1, h.2.trans hk, ?_⟩, h.1.2.1⟩⟩
    rcases h3 with h3 | ⟨rfl, rfl⟩
    · exact .inl (by rw [h.1.2.1]; exact h3)
    · exact .inr ⟨h.1.2.1, by rw [h.1.2.2]; exact hw⟩
  cases h <;> try exact hp.elim
  case scanSlot c' j =>
    cases j <;> try exact hp.elim
    obtain ⟨rfl, rfl⟩ := hp
    exact .inl ⟨_, rfl, rfl, rfl, hc⟩
  case scanConfirmed n j r hf hj =>
    cases j <;> try exact hp.elim
    obtain ⟨rfl, rfl, ⟨h, -⟩ | ⟨-, rfl⟩⟩ := hp
    · simp at h
    obtain ⟨h1, h2⟩ := getConfirmed_spec _ (by simp [Scan.keys]) hf
    have h3 := ((h2 0 a.pubkey rfl).2 (by simp [Scan.keys]) y a.slot).2 (.here he hx)
    rw [← List.head?_eq_getElem?] at h3
    simp only [Scan.next, h3, Run.unwrap, Run.ok_bind, Run.pure_eq, Run.ok.injEq] at hj
    subst hj
    exact .inl ⟨_, rfl, found _ _ _ he hx (.inr ⟨rfl, rfl⟩)⟩
  case scanAgain n j r hf =>
    cases j <;> try exact hp.elim
    obtain ⟨rfl, rfl, ⟨-, h⟩ | ⟨h, -⟩⟩ := hp
    · obtain ⟨k', e', x', h1, -⟩ := scan_newest h hx s.processed.reverse (List.pairwise_reverse.2 hs.proc.sorted)
        (List.mem_reverse.2 ((BMap.mem_iff_find hs.proc.sorted _ _).2 he))
      simp only [Scan.keys, List.length_singleton, List.replicate_one] at hf
      rw [h1] at hf
      simp at hf
    · simp at h
  case scanDone n j r hf hj =>
    cases j <;> try exact hp.elim
    obtain ⟨rfl, rfl, ⟨-, h⟩ | ⟨h, -⟩⟩ := hp
    · obtain ⟨k', e', x', h1, h2, h3, h4⟩ := scan_newest h hx s.processed.reverse
        (List.pairwise_reverse.2 hs.proc.sorted) (List.mem_reverse.2 ((BMap.mem_iff_find hs.proc.sorted _ _).2 he))
      simp only [Scan.keys, List.length_singleton, List.replicate_one] at hf
      rw [h1] at hf
      simp only [Prod.mk.injEq, and_true] at hf
      subst hf
      simp only [Scan.next, List.head?_cons, Run.unwrap, Run.ok_bind, Run.pure_eq, Run.ok.injEq] at hj
      subst hj
      exact .inl ⟨_, rfl, found _ _ _ ((BMap.mem_iff_find hs.proc.sorted _ _).1 (List.mem_reverse.1 h2)) h3 h4⟩
    · simp at h
  case convertEnd out j =>
    cases j <;> try (cases out <;> exact hp.elim)
    exact .inr ⟨out.head?, rfl, hp⟩
  case conv x slot wv l out j r hr =>
    cases l with
    | cons d l => exact hp.elim
    | nil =>
      cases out with
      | cons d l => exact hp.elim
      | nil =>
        cases j <;> try exact hp.elim
        refine .inl ⟨_, rfl, ?_⟩
        rcases conv_due hg hs hp.2 hr with ⟨b, rfl, h4, h5, h6, h7⟩ | ⟨rfl, a', h4, h5⟩
        · exact .inl ⟨b, rfl, h5.trans hp.1, h6.symm ▸ h4⟩
        · exact .inr ⟨rfl, a', h4.1, h5⟩

/-! ## The confirmed slot -/

theorem out_confirmed {E : Env} {σ : Orders} {s s' : TokenStore} {p : Pc} {n : Next} (h : Out E σ s p s' n) :
    s'.confirmedSlot = s.confirmedSlot ∨ ∃ info, p = .psConfirm info ∧ s'.confirmedSlot = info.slot := by
  cases h
  case confirm info => exact .inr ⟨info, rfl, rfl⟩
  all_goals exact .inl rfl

theorem out_psConfirm {E : Env} {σ : Orders} {s s' : TokenStore} {p : Pc} {info : SlotInfo} (h : Out E σ s p s' (.go (.psConfirm info))) :
    p = .psStart info .confirmed ∧ s.confirmedSlot < info.slot := by
  generalize hn : Next.go (.psConfirm info) = n at h
  cases h <;> first
    | (cases hn; done)
    | (obtain ⟨x, k'', h⟩ := after_next hn.symm; simp at h)
    | (rcases job_next hn.symm with ⟨x, k'', h⟩ | ⟨x, k'', h⟩ <;> simp at h)
    | (rename_i hj; rcases scan_next hj with ⟨l, out, j, h⟩ | ⟨pk, h⟩ <;> rw [h] at hn <;> cases hn)
    | (cases hn; exact ⟨rfl, by assumption⟩)

/-- The thread has still to compare or to write the confirmed slot. -/
def Early (info : SlotInfo) (p : Pc) : Prop := p = .psStart info .confirmed ∨ p = .psConfirm info

/-- A notification that has compared and written the confirmed slot. -/
theorem out_late {E : Env} {log : List (Nat × Event)} {g : List Pubkey} {m : Nat} {σ : Orders} {s s' : TokenStore} {p : Pc} {n : Next}
    {info : SlotInfo} (hv : Serves E.codecs log g m (.process info .confirmed) p) (h : Out E σ s p s' n)
    (hl : ¬ Early info p → info.slot ≤ s.confirmedSlot) :
    (∃ q, n = .go q ∧ (¬ Early info q → info.slot ≤ s'.confirmedSlot)) ∨
      (∃ r, n = .ret r ∧ info.slot ≤ s'.confirmedSlot ∧ ¬ Early info p ∧ s'.confirmedSlot = s.confirmedSlot) := by
  by_cases he : Early info p
  · rcases he with rfl | rfl
    · cases h
      · exact .inl ⟨_, rfl, fun h => absurd (.inr rfl) h⟩
      · exact .inl ⟨_, rfl, fun _ => by omega⟩
    · cases h
      exact .inl ⟨_, rfl, fun _ => le_refl _⟩
  · have hc : s'.confirmedSlot = s.confirmedSlot := by
      rcases out_confirmed h with h1 | ⟨info', rfl, h1⟩
      · exact h1
      · cases hv
        exact absurd (.inr rfl) he
    have := hl he
    cases n with
    | go q => exact .inl ⟨q, rfl, fun _ => by omega⟩
    | ret r => exact .inr ⟨r, rfl, by omega, he, hc⟩

theorem solo_snoc {log : List (Nat × Event)} {t x : Nat} {info : SlotInfo} {v : Event} (h : Solo (log ++ [(x, v)]) t info) :
    (x = t ∧ v = .call (.process info .confirmed)) ∨ (x ≠ t ∧ Solo log t info) := by
  obtain ⟨pre, mid, h1, h2, h3, h4⟩ := h
  rcases List.eq_nil_or_concat mid with rfl | ⟨mid', e, rfl⟩
  · have h6 := List.append_inj' h1 rfl
    simp only [List.cons.injEq, Prod.mk.injEq, and_true] at h6
    exact .inl h6.2
  · have h6 : log ++ [(x, v)] = (pre ++ (t, .call (.process info .confirmed)) :: mid') ++ [e] := by simpa using h1
    obtain ⟨h7, h8⟩ := List.append_inj' h6 rfl
    simp only [List.cons.injEq, and_true] at h8
    subst h8
    exact .inr ⟨h2 (x, v) (by simp), pre, mid', h7, fun e he => h2 e (by simp [he]), h3, fun u i hm => h4 u i (by simp [hm])⟩

theorem Solo.lastCall {log : List (Nat × Event)} {t : Nat} {info : SlotInfo} (h : Solo log t info) :
    LastCall log t (.process info .confirmed) := by
  obtain ⟨pre, mid, h1, h2, -⟩ := h
  exact ⟨pre, mid, h1, h2⟩

/-- No confirmed notification of an earlier slot is being executed. -/
theorem Solo.least {log : List (Nat × Event)} {t : Nat} {info : SlotInfo} (h : Solo log t info) {u : Nat} {info' : SlotInfo}
    (hu : LastCall log u (.process info' .confirmed)) : info.slot ≤ info'.slot := by
  obtain ⟨pre, mid, rfl, -, h3, h4⟩ := h
  induction mid using List.reverseRecOn with
  | nil =>
    rcases lastCall_snoc.1 hu with ⟨-, h⟩ | ⟨-, h⟩
    · cases h; exact le_refl _
    · exact h3 u info' h
  | append_singleton mid e ih =>
    obtain ⟨x, v⟩ := e
    have hu : LastCall ((pre ++ (t, .call (.process info .confirmed)) :: mid) ++ [(x, v)]) u (.process info' .confirmed) := by
      simpa using hu
    rcases lastCall_snoc.1 hu with ⟨rfl, rfl⟩ | ⟨-, h⟩
    · exact h4 x info' (by simp)
    · exact ih h fun u i hm => h4 u i (by simp [hm])

theorem confirmedAlone_snoc {log : List (Nat × Event)} {x k : Nat} {v : Event} (h : ConfirmedAlone (log ++ [(x, v)]) k) :
    ConfirmedAlone log k ∨ ∃ r info, v = .ret r ∧ Solo log x info ∧ info.slot = k := by
  obtain ⟨pre, post, u, info, r, he, hk, hc⟩ := h
  rcases List.eq_nil_or_concat post with rfl | ⟨post', e, rfl⟩
  · have h6 := List.append_inj' he rfl
    simp only [List.cons.injEq, Prod.mk.injEq, and_true] at h6
    obtain ⟨rfl, rfl, rfl⟩ := h6
    exact .inr ⟨r, info, rfl, hk, hc⟩
  · have h6 : log ++ [(x, v)] = (pre ++ (u, .ret r) :: post') ++ [e] := by simpa using he
    exact .inl ⟨pre, post', u, info, r, (List.append_inj' h6 rfl).1, hk, hc⟩

theorem ConfirmedAlone.mono {log log' : List (Nat × Event)} (h : log <+: log') {k : Nat} (ha : ConfirmedAlone log k) :
    ConfirmedAlone log' k := by
  obtain ⟨l, rfl⟩ := h
  obtain ⟨pre, post, t, info, r, rfl, hk, hc⟩ := ha
  exact ⟨pre, post ++ l, t, info, r, by simp, hk, hc⟩

/-! ## Executions -/

/-- What a read was promised when it was called. -/
def Promised (c : Commitment) (a : AccountData) (log : List (Nat × Event)) : Prop :=
  Accepted log a ∧ (c = .confirmed → ConfirmedAlone log a.slot)

/-- And what has not happened since. -/
def Undisturbed (c : Commitment) (a : AccountData) (log : List (Nat × Event)) : Prop :=
  Kept log a.slot ∧ ((c = .processed ∧ 0 < a.slot ∧ Unconfirmed log a.slot) ∨ (c = .confirmed ∧ NoLater log a.slot))

theorem Undisturbed.anti {log log' : List (Nat × Event)} (h : log <+: log') {c : Commitment} {a : AccountData}
    (hu : Undisturbed c a log') : Undisturbed c a log :=
  ⟨hu.1.anti h, hu.2.imp (fun h' => ⟨h'.1, h'.2.1, h'.2.2.anti h⟩) fun h' => ⟨h'.1, h'.2.anti h⟩⟩

/-- What is due to accepted updates. -/
structure Due (E : Env) (w : World) (g : List Pubkey) : Prop where
  submit : ∀ t a c, LastCall w.log t (.submit a (some c)) → c ≠ .finalized → SubmitPc a c (w.pc t)
  stored : ∀ a, Accepted w.log a → Kept w.log a.slot → ∃ x, stateAt w.st.processed a.slot a.pubkey = some x ∧ a.wv ≤ x.wv
  solo : ∀ t info, Solo w.log t info → NoLater w.log info.slot → ¬ Early info (w.pc t) → info.slot ≤ w.st.confirmedSlot
  alone : ∀ k, ConfirmedAlone w.log k → NoLater w.log k → w.st.confirmedSlot = k ∧ ∀ t info, w.pc t = .psConfirm info → k ≤ info.slot
  report : ∀ t info a, Since w.log t (.process info .confirmed) (Accepted · a) → Kept w.log a.slot → a.slot = info.slot →
    RepPc E.codecs w.log g a (w.pc t)
  read : ∀ t c a, Since w.log t (.get a.pubkey c) (Promised c a) → Undisturbed c a w.log → ReadPc E.codecs w.log g a c (w.pc t)
  reports : ∀ pre post t info a l, w.log = pre ++ (t, .ret (.reported l)) :: post →
    Since pre t (.process info .confirmed) (Accepted · a) → Kept pre a.slot → a.slot = info.slot → DueOut E.codecs pre a l
  reads : ∀ pre post t c a o, w.log = pre ++ (t, .ret (.account o)) :: post → Since pre t (.get a.pubkey c) (Promised c a) →
    Undisturbed c a pre → ShowsAsNew E.codecs pre a o

theorem due_init (E : Env) : Due E World.init [] := by
  have nolast : ∀ t k, ¬ LastCall [] t k := by rintro t k ⟨pre, mid, h, -⟩; simp at h
  refine ⟨fun t a c h => absurd h (nolast _ _), ?_, fun t i h => absurd h.lastCall (nolast _ _), ?_, fun t i a h => absurd h.lastCall (nolast _ _),
    fun t c a h => absurd h.lastCall (nolast _ _), ?_, ?_⟩
  · rintro a ⟨pre, post, t, c, h, -⟩; simp [World.init] at h
  · rintro k ⟨pre, post, t, i, r, h, -⟩; simp [World.init] at h
  · intro pre post t info a l h; simp [World.init] at h
  · intro pre post t c a o h; simp [World.init] at h

/-- The end of a log. -/
theorem snoc_ret {log pre post : List (Nat × Event)} {t u : Nat} {v : Event} {r : Reply}
    (he : log ++ [(t, v)] = pre ++ (u, .ret r) :: post) :
    (pre = log ∧ u = t ∧ v = .ret r) ∨ ∃ post', log = pre ++ (u, .ret r) :: post' := by
  rcases List.eq_nil_or_concat post with rfl | ⟨post', e, rfl⟩
  · have h6 := List.append_inj' he rfl
    simp only [List.cons.injEq, Prod.mk.injEq, and_true] at h6
    exact .inl ⟨h6.1.symm, h6.2.1.symm, h6.2.2⟩
  · have h6 : log ++ [(t, v)] = (pre ++ (u, .ret r) :: post') ++ [e] := by simpa using he
    exact .inr ⟨post', (List.append_inj' h6 rfl).1⟩

theorem due_step {E : Env} {w w' : World} (reach : Reachable E w) (hs : Step E w w') (hb : submits w'.log ≤ 2 ^ 31)
    {g g' : List Pubkey} (hg' : g <+: g') (hinv : InvAt E w g) (hd : Due E w g) : Due E w' g' := by
  obtain ⟨N, -, hc, hst, hsv, -⟩ := hinv
  have hb' : submits w.log ≤ 2 ^ 31 := Nat.le_trans (step_submits hs) hb
  have hg : g.length ≤ 2 ^ 32 := by omega
  have pscall : ∀ u info, w.pc u = .psConfirm info → LastCall w.log u (.process info .confirmed) := by
    intro u info hu
    obtain ⟨k, hk⟩ := (busy_iff reach u).1 (by rw [hu]; simp)
    rcases hsv u k hk with h | ⟨l, h⟩
    · rw [hu] at h
      cases h
      exact hk
    · rw [hu] at h; cases h
  have cs_le : ∀ k, NoLater w.log k → w.st.confirmedSlot ≤ k := by
    intro k hk
    rcases hst.slots.confirmed with h | h
    · omega
    · exact hk _ h
  cases hs with
  | work hwk =>
    obtain ⟨t, hi, -, h⟩ := work_cases hwk
    obtain ⟨k, hk⟩ := (busy_iff reach t).1 (active_ne hi)
    have hv : Serves E.codecs w.log g w.st.tokens.accounts.length k (w.pc t) := by
      rcases hsv t k hk with h | ⟨l, h⟩
      · exact h
      · rw [h] at hi; exact hi.elim
    -- the condition of a read
    have cond : ∀ c a, (∃ u, Since w.log u (.get a.pubkey c) (Promised c a)) → Undisturbed c a w.log →
        (c = .processed ∧ w.st.confirmedSlot < a.slot ∨ c = .confirmed ∧ w.st.confirmedSlot = a.slot) ∧
        ∃ x, stateAt w.st.processed a.slot a.pubkey = some x ∧ a.wv ≤ x.wv := by
      rintro c a ⟨u, hs⟩ ⟨h1, h2⟩
      obtain ⟨pre, hp, h3, h4⟩ := hs.prefix
      refine ⟨?_, hd.stored a (h3.mono hp) h1⟩
      rcases h2 with ⟨rfl, h5, h6⟩ | ⟨rfl, h5⟩
      · refine .inl ⟨rfl, ?_⟩
        rcases hst.slots.confirmed with h | h
        · omega
        · exact h6 _ h
      · exact .inr ⟨rfl, (hd.alone _ ((h4 rfl).mono hp) h5).1⟩
    -- the end of a call
    have ret : ∀ s r, s.confirmedSlot = w.st.confirmedSlot →
        (∀ a, Accepted w.log a → Kept w.log a.slot → ∃ x, stateAt s.processed a.slot a.pubkey = some x ∧ a.wv ≤ x.wv) →
        (r = .updated true → ∀ a c, LastCall w.log t (.submit a (some c)) → c ≠ .finalized →
          ∃ x, stateAt s.processed a.slot a.pubkey = some x ∧ a.wv ≤ x.wv) →
        (∀ info, Solo w.log t info → ¬ Early info (w.pc t)) →
        (∀ info a l, r = .reported l → Since w.log t (.process info .confirmed) (Accepted · a) → Kept w.log a.slot →
          a.slot = info.slot → DueOut E.codecs w.log a l) →
        (∀ c a o, r = .account o → Since w.log t (.get a.pubkey c) (Promised c a) → Undisturbed c a w.log →
          ShowsAsNew E.codecs w.log a o) →
        Due E { st := s, pc := upd w.pc t .idle, log := w.log ++ [(t, .ret r)] } g' := by
      intro s r h0 h1 h2 h3 h4 h5
      have hl : w.log <+: w.log ++ [(t, Event.ret r)] := List.prefix_append _ _
      refine ⟨fun u a c hu hc => ?_, fun a ha hk => ?_, fun u info hu hn he => ?_, fun m hm hn => ?_, fun u info a hu hk he => ?_,
        fun u c a hu hk => ?_, fun pre post u info a l he hu hk ha => ?_, fun pre post u c a o he hu hk => ?_⟩
      · rcases lastCall_snoc.1 hu with ⟨-, h⟩ | ⟨hne, hu⟩
        · cases h
        · show SubmitPc a c (upd w.pc t .idle u)
          rw [upd_other (Ne.symm hne)]
          exact hd.submit u a c hu hc
      · rcases accepted_snoc ha with ha | ⟨he, c, hl', hc⟩
        · exact h1 a ha (hk.anti hl)
        · exact h2 (Event.ret.inj he) a c hl' hc
      · rcases solo_snoc hu with ⟨-, h⟩ | ⟨hne, hu⟩
        · cases h
        · rw [show (World.mk s (upd w.pc t .idle) (w.log ++ [(t, .ret r)])).pc u = w.pc u from upd_other (Ne.symm hne)] at he
          show info.slot ≤ s.confirmedSlot
          rw [h0]
          exact hd.solo u info hu (hn.anti hl) he
      · have hn := hn.anti hl
        show s.confirmedSlot = m ∧ ∀ u info, upd w.pc t .idle u = .psConfirm info → m ≤ info.slot
        rw [h0]
        rcases confirmedAlone_snoc hm with hm | ⟨r', info, -, hs, rfl⟩
        · refine ⟨(hd.alone m hm hn).1, fun u info hu => ?_⟩
          by_cases e : u = t
          · subst e; rw [upd_self] at hu; cases hu
          · rw [upd_other e] at hu; exact (hd.alone m hm hn).2 u info hu
        · refine ⟨Nat.le_antisymm (cs_le _ hn) (hd.solo t info hs hn (h3 info hs)), fun u info' hu => ?_⟩
          by_cases e : u = t
          · subst e; rw [upd_self] at hu; cases hu
          · rw [upd_other e] at hu; exact hs.least (pscall u info' hu)
      · rcases since_snoc hu with ⟨-, h, -⟩ | ⟨hne, hu⟩
        · cases h
        · show RepPc _ _ _ _ (upd w.pc t .idle u)
          rw [upd_other (Ne.symm hne)]
          exact (hd.report u info a hu (hk.anti hl) he).mono hl hg'
      · rcases since_snoc hu with ⟨-, h, -⟩ | ⟨hne, hu⟩
        · cases h
        · show ReadPc _ _ _ _ _ (upd w.pc t .idle u)
          rw [upd_other (Ne.symm hne)]
          exact (hd.read u c a hu (hk.anti hl)).mono hl hg'
      · rcases snoc_ret he with ⟨e1, e2, hr⟩ | ⟨post', h⟩
        · rw [e1, e2] at hu; rw [e1] at hk ⊢
          exact h4 info a l (Event.ret.inj hr) hu hk ha
        · exact hd.reports pre post' u info a l h hu hk ha
      · rcases snoc_ret he with ⟨e1, e2, hr⟩ | ⟨post', h⟩
        · rw [e1, e2] at hu; rw [e1] at hk ⊢
          exact h5 c a o (Event.ret.inj hr) hu hk
        · exact hd.reads pre post' u c a o h hu hk
    -- a step inside a call
    have go : ∀ s p,
        (∀ a, Accepted w.log a → Kept w.log a.slot → ∃ x, stateAt s.processed a.slot a.pubkey = some x ∧ a.wv ≤ x.wv) →
        (∀ a c, LastCall w.log t (.submit a (some c)) → c ≠ .finalized → SubmitPc a c p) →
        (∀ info, Solo w.log t info → NoLater w.log info.slot → ¬ Early info p → info.slot ≤ s.confirmedSlot) →
        (s.confirmedSlot = w.st.confirmedSlot ∨ ∃ info, w.pc t = .psConfirm info ∧ s.confirmedSlot = info.slot) →
        (∀ info, p = .psConfirm info → LastCall w.log t (.process info .confirmed) ∧ w.st.confirmedSlot < info.slot) →
        (∀ info a, Since w.log t (.process info .confirmed) (Accepted · a) → Kept w.log a.slot →
          a.slot = info.slot → RepPc E.codecs w.log g a p) →
        (∀ c a, Since w.log t (.get a.pubkey c) (Promised c a) → Undisturbed c a w.log → ReadPc E.codecs w.log g a c p) →
        Due E { w with st := s, pc := upd w.pc t p } g' := by
      intro s p h1 h2 h3 h4 h5 h6 h7
      refine ⟨fun u a c hu hc => ?_, h1, fun u info hu hn he => ?_, fun m hm hn => ?_, fun u info a hu hk he => ?_,
        fun u c a hu hk => ?_, hd.reports, hd.reads⟩
      · show SubmitPc a c (upd w.pc t p u)
        by_cases e : u = t
        · subst e; rw [upd_self]; exact h2 a c hu hc
        · rw [upd_other e]; exact hd.submit u a c hu hc
      · by_cases e : u = t
        · subst e
          simp only [upd_self] at he
          exact h3 info hu hn he
        · simp only [upd_other e] at he
          show info.slot ≤ s.confirmedSlot
          rcases h4 with h4 | ⟨info', h4, h8⟩
          · rw [h4]; exact hd.solo u info hu hn he
          · rw [h8]; exact hu.least (pscall t info' h4)
      · obtain ⟨h8, h9⟩ := hd.alone m hm hn
        refine ⟨?_, fun u info hu => ?_⟩
        · show s.confirmedSlot = m
          rcases h4 with h4 | ⟨info', h4, h10⟩
          · rw [h4]; exact h8
          · obtain ⟨v, h11⟩ := lastCall_mem (pscall t info' h4)
            rw [h10]
            exact Nat.le_antisymm (hn info'.slot ⟨v, info', h11, rfl⟩) (h9 t info' h4)
        · have hu : upd w.pc t p u = .psConfirm info := hu
          by_cases e : u = t
          · subst e
            rw [upd_self] at hu
            obtain ⟨h10, h11⟩ := h5 info hu
            obtain ⟨v, h12⟩ := lastCall_mem h10
            have := hn info.slot ⟨v, info, h12, rfl⟩
            omega
          · rw [upd_other e] at hu; exact h9 u info hu
      · show RepPc _ _ _ _ (upd w.pc t p u)
        by_cases e : u = t
        · subst e; rw [upd_self]; exact (h6 info a hu hk he).mono (List.prefix_refl _) hg'
        · rw [upd_other e]; exact (hd.report u info a hu hk he).mono (List.prefix_refl _) hg'
      · show ReadPc _ _ _ _ _ (upd w.pc t p u)
        by_cases e : u = t
        · subst e; rw [upd_self]; exact (h7 c a hu hk).mono (List.prefix_refl _) hg'
        · rw [upd_other e]; exact (hd.read u c a hu hk).mono (List.prefix_refl _) hg'
    have rep : ∀ info a, Since w.log t (.process info .confirmed) (Accepted · a) → Kept w.log a.slot → a.slot = info.slot →
        ∃ x, stateAt w.st.processed a.slot a.pubkey = some x ∧ a.wv ≤ x.wv := by
      intro info a h1 h2 h3
      obtain ⟨pre, h4, h5⟩ := h1.prefix
      exact hd.stored a (h5.mono h4) h2
    rcases h with ⟨σ, s, p, ho, rfl, -⟩ | ⟨σ, s, r, ho, rfl⟩ | ⟨σ, hp, rfl⟩ | ⟨σ, hp, rfl⟩
    · have keep : ∀ a, Accepted w.log a → Kept w.log a.slot → ∃ x, stateAt s.processed a.slot a.pubkey = some x ∧ a.wv ≤ x.wv := by
        intro a h1 h2
        obtain ⟨x, h3, h4⟩ := hd.stored a h1 h2
        exact out_keeps hst hv ho h2 h3 h4
      refine go s p keep (fun a c h1 h2 => ?_) (fun info h1 h2 h3 => ?_) ?_ (fun info h1 => ?_) (fun info a h1 h2 h3 => ?_)
        fun c a h1 h2 => ?_
      · rcases submit_out h2 (hd.submit t a c h1 h2) ho with ⟨q, h3, h4⟩ | h3 | ⟨x, -, h3⟩
        · cases h3; exact h4
        · cases h3
        · cases h3
      · cases lastCall_unique hk h1.lastCall
        rcases out_late hv ho (hd.solo t info h1 h2) with ⟨q, h4, h5⟩ | ⟨r, h4, -⟩
        · cases h4; exact h5 h3
        · cases h4
      · exact out_confirmed ho
      · subst h1
        obtain ⟨h1, h2⟩ := out_psConfirm ho
        rw [h1] at hv
        cases hv
        exact ⟨hk, h2⟩
      · obtain ⟨x, h4, h5⟩ := rep info a h1 h2 h3
        rcases rep_out hg hst h4 h5 (hd.report t info a h1 h2 h3) ho with ⟨q, h6, h7⟩ | ⟨l, h6, -⟩
        · cases h6; exact h7
        · cases h6
      · obtain ⟨h3, x, h4, h5⟩ := cond c a ⟨t, h1⟩ h2
        rcases read_out hg hst h4 h5 h3 (hd.read t c a h1 h2) ho with ⟨q, h6, h7⟩ | ⟨l, h6, -⟩
        · cases h6; exact h7
        · cases h6
    · have keep : ∀ a, Accepted w.log a → Kept w.log a.slot → ∃ x, stateAt s.processed a.slot a.pubkey = some x ∧ a.wv ≤ x.wv := by
        intro a h1 h2
        obtain ⟨x, h3, h4⟩ := hd.stored a h1 h2
        exact out_keeps hst hv ho h2 h3 h4
      refine ret s r ?_ keep (fun he a c h1 h2 => ?_) (fun info h1 h2 => ?_) (fun info a l he h1 h2 h3 => ?_)
        fun c a o he h1 h2 => ?_
      · rcases out_confirmed ho with h1 | ⟨info, h1, -⟩
        · exact h1
        · rw [h1] at ho; cases ho
      · subst he
        rcases submit_out h2 (hd.submit t a c h1 h2) ho with ⟨q, h3, h4⟩ | h3 | ⟨x, h3, h4⟩
        · cases h3
        · cases h3
        · simp only [Next.ret.injEq, Reply.updated.injEq] at h4
          exact ⟨_, by rw [h3]; exact insertAccount_true h4.symm, le_refl _⟩
      · rcases h2 with h2 | h2 <;> rw [h2] at ho <;> cases ho
      · subst he
        obtain ⟨x, h4, h5⟩ := rep info a h1 h2 h3
        rcases rep_out hg hst h4 h5 (hd.report t info a h1 h2 h3) ho with ⟨q, h6, h7⟩ | ⟨l, h6, h7⟩
        · cases h6
        · cases h6; exact h7
      · subst he
        obtain ⟨h3, x, h4, h5⟩ := cond c a ⟨t, h1⟩ h2
        rcases read_out hg hst h4 h5 h3 (hd.read t c a h1 h2) ho with ⟨q, h6, h7⟩ | ⟨l, h6, h7⟩
        · cases h6
        · cases h6; exact h7
    · refine ret w.st .panicked rfl hd.stored (fun he => by cases he) (fun info h1 h2 => ?_) (fun info a l he => by cases he)
        fun c a o he => by cases he
      rcases h2 with h2 | h2 <;> rw [h2] at hp <;> simp [Pc.exec] at hp
    · refine go w.st _ hd.stored (fun a c h1 h2 => trivial) (fun info h1 h2 h3 => ?_) (.inl rfl) (fun info h1 => by cases h1)
        (fun info a h1 h2 h3 => trivial) fun c a h1 h2 => trivial
      refine hd.solo t info h1 h2 fun h4 => ?_
      rcases h4 with h4 | h4 <;> rw [h4] at hp <;> simp [Pc.exec] at hp
  | call t k hi =>
    have hl : w.log <+: w.log ++ [(t, Event.call k)] := List.prefix_append _ _
    refine ⟨fun u a c hu hc => ?_, fun a ha hk => ?_, fun u info hu hn he => ?_, fun m hm hn => ?_, fun u info a hu hk he => ?_,
      fun u c a hu hk => ?_, fun pre post u info a l he hu hk ha => ?_, fun pre post u c a o he hu hk => ?_⟩
    · show SubmitPc a c (upd w.pc t k.start u)
      rcases lastCall_snoc.1 hu with ⟨rfl, h⟩ | ⟨hne, hu⟩
      · cases h
        rw [upd_self]
        exact ⟨rfl, rfl⟩
      · rw [upd_other (Ne.symm hne)]
        exact hd.submit u a c hu hc
    · rcases accepted_snoc ha with ha | ⟨he, -⟩
      · exact hd.stored a ha (hk.anti hl)
      · cases he
    · have he : ¬ Early info (upd w.pc t k.start u) := he
      rcases solo_snoc hu with ⟨rfl, h⟩ | ⟨hne, hu⟩
      · cases h
        rw [upd_self] at he
        exact absurd (.inl rfl) he
      · rw [upd_other (Ne.symm hne)] at he
        exact hd.solo u info hu (hn.anti hl) he
    · rcases confirmedAlone_snoc hm with hm | ⟨r', info, h, -⟩
      · obtain ⟨h8, h9⟩ := hd.alone m hm (hn.anti hl)
        refine ⟨h8, fun u info hu => ?_⟩
        have hu : upd w.pc t k.start u = .psConfirm info := hu
        by_cases e : u = t
        · subst e
          rw [upd_self] at hu
          cases k with
          | get pk c => simp only [Call.start] at hu; split at hu <;> cases hu
          | _ => simp [Call.start] at hu
        · rw [upd_other e] at hu; exact h9 u info hu
      · cases h
    · show RepPc _ _ _ _ (upd w.pc t k.start u)
      rcases since_snoc hu with ⟨rfl, h, -⟩ | ⟨hne, hu⟩
      · cases h
        rw [upd_self]
        exact ⟨rfl, he.symm⟩
      · rw [upd_other (Ne.symm hne)]
        exact (hd.report u info a hu (hk.anti hl) he).mono hl hg'
    · show ReadPc _ _ _ _ _ (upd w.pc t k.start u)
      rcases since_snoc hu with ⟨rfl, h, -⟩ | ⟨hne, hu⟩
      · cases h
        rw [upd_self]
        rcases hk.2 with ⟨rfl, -⟩ | ⟨rfl, -⟩
        · exact ⟨rfl, rfl⟩
        · exact ⟨rfl, rfl⟩
      · rw [upd_other (Ne.symm hne)]
        exact (hd.read u c a hu (hk.anti hl)).mono hl hg'
    · rcases snoc_ret he with ⟨rfl, rfl, h⟩ | ⟨post', h⟩
      · cases h
      · exact hd.reports pre post' u info a l h hu hk ha
    · rcases snoc_ret he with ⟨rfl, rfl, h⟩ | ⟨post', h⟩
      · cases h
      · exact hd.reads pre post' u c a o h hu hk

theorem due {E : Env} {w : World} (hr : Reachable E w) (hb : submits w.log ≤ 2 ^ 31) : ∃ g, InvAt E w g ∧ Due E w g := by
  induction hr with
  | refl => exact ⟨[], inv_init E, due_init E⟩
  | @tail w w' hw hs ih =>
    obtain ⟨g, h1, h2⟩ := ih (Nat.le_trans (step_submits hs) hb)
    obtain ⟨g', h3, h4⟩ := inv_step hw hs hb h1
    exact ⟨g', h4, due_step hw hs hb h3 h1 h2⟩

end LAM.TokConc
