import Verif.Lemmas.TokenConcDue
/-!
# Concurrent calls of the token program store: processed reads do not go back
-/
namespace LAM.TokConc
open Token Run Spec ProcStore

/-- A state as new as `a` is stored for its slot. -/
def Stocked (s : TokenStore) (a : AccountData) : Prop := ∃ x, stateAt s.processed a.slot a.pubkey = some x ∧ a.wv ≤ x.wv

/-- `H n a`: a state as new as `a` was stored when the log had `n` events. -/
abbrev Past := Nat → AccountData → Prop

/-- A state as new as `a` was stored by then. -/
def By (H : Past) (a : AccountData) (log : List (Nat × Event)) : Prop := ∃ n, n ≤ log.length ∧ H n a

/-- A state that was found for the account: a finalized one, or one that was stored. -/
def Src (X : Codecs) (log : List (Nat × Event)) (g : List Pubkey) (H : Past) (pk : Pubkey) (k : Nat) (x : ProgramAccount) : Prop :=
  FinalSlot log k ∨ ∃ a, By H a log ∧ a.slot = k ∧ a.pubkey = pk ∧ Noted log a ∧ From X g (· = a) x

/-- The same for an answer. -/
def Ans (X : Codecs) (log : List (Nat × Event)) (H : Past) (pk : Pubkey) (b : AccountData) : Prop :=
  FinalSlot log b.slot ∨ ∃ a, By H a log ∧ a.slot = b.slot ∧ a.pubkey = pk ∧ Noted log a ∧ Stems X (· = a) b

/-- What a thread that reads one account has found so far. -/
def HeldPc (X : Codecs) (log : List (Nat × Event)) (g : List Pubkey) (H : Past) (pk : Pubkey) : Pc → Prop
  | .scanSlot _ (.one pk') | .scan _ _ (.one pk') => pk' = pk
  | .rescan _ ret (.one pk') => pk' = pk ∧ ret.length = 1 ∧ ∀ x k, some (x, k) ∈ ret → Src X log g H pk k x.account
  | .convert items out .one => (∀ x ∈ items, ∃ y k v, x = .conv y k v ∧ Src X log g H pk k y) ∧ ∀ b ∈ out, Ans X log H pk b
  | .finMultisig _ | .finMultisigSlot .. | .finIndex _ | .finMint .. | .finMintSlot .. | .finBucket _ | .finAccounts _ | .finSlot _
  | .loops _ => True
  | _ => False

section Mono
variable {X : Codecs} {log log' : List (Nat × Event)} {g g' : List Pubkey} {H H' : Past} (hl : log <+: log') (hH : ∀ n a, H n a → H' n a)
include hl hH

theorem By.mono {a : AccountData} (h : By H a log) : By H' a log' := by
  obtain ⟨n, h1, h2⟩ := h
  exact ⟨n, Nat.le_trans h1 hl.length_le, hH n a h2⟩

theorem Src.mono (hg : g <+: g') {pk : Pubkey} {k : Nat} {x : ProgramAccount} (h : Src X log g H pk k x) : Src X log' g' H' pk k x := by
  rcases h with h | ⟨a, h1, h2, h3, h4, h5⟩
  · exact .inl (h.mono hl)
  · exact .inr ⟨a, h1.mono hl hH, h2, h3, h4.mono hl, h5.mono hg fun _ h => h⟩

theorem Ans.mono {pk : Pubkey} {b : AccountData} (h : Ans X log H pk b) : Ans X log' H' pk b := by
  rcases h with h | ⟨a, h1, h2, h3, h4, h5⟩
  · exact .inl (h.mono hl)
  · exact .inr ⟨a, h1.mono hl hH, h2, h3, h4.mono hl, h5⟩

theorem HeldPc.mono (hg : g <+: g') {pk : Pubkey} {p : Pc} (h : HeldPc X log g H pk p) : HeldPc X log' g' H' pk p := by
  unfold HeldPc at h ⊢
  split at h <;> try exact h
  · exact ⟨h.1, h.2.1, fun x k hx => (h.2.2 x k hx).mono hl hH hg⟩
  · refine ⟨fun x hx => ?_, fun b hb => (h.2 b hb).mono hl hH⟩
    obtain ⟨y, k, v, h1, h2⟩ := h.1 x hx
    exact ⟨y, k, v, h1, h2.mono hl hH hg⟩

end Mono

/-- One account among those above the confirmed slot. -/
theorem scan_one {pk : Pubkey} {n : Nat} {Q : Processed → Nat → Prop} (l : List (Nat × BySlot))
    (hl : ∀ k e x, (k, e) ∈ l → e.accounts.find pk = some x → Q x k) {o : Option (Processed × Nat)}
    (ho : ∀ x k, o = some (x, k) → Q x k) {r : Answers} {b : Bool} (h : scanProcessed [pk] n l [o] = (r, b)) :
    ∃ o', r = [o'] ∧ ∀ x k, o' = some (x, k) → Q x k := by
  induction l generalizing o with
  | nil => simp [scanProcessed] at h; exact ⟨o, h.1.symm, ho⟩
  | cons e l ih =>
    obtain ⟨slot, e⟩ := e
    obtain ⟨o1, h1, h2⟩ : ∃ o1, ProcStore.fill slot e [pk] [o] = [o1] ∧ ∀ x k, o1 = some (x, k) → Q x k := by
      cases o with
      | some v => exact ⟨some v, by simp [ProcStore.fill], ho⟩
      | none =>
        cases hf : e.accounts.find pk with
        | none => exact ⟨none, by simp [ProcStore.fill, hf], by simp⟩
        | some x =>
          refine ⟨some (x, slot), by simp [ProcStore.fill, hf], fun y k hy => ?_⟩
          simp only [Option.some.injEq, Prod.mk.injEq] at hy
          obtain ⟨rfl, rfl⟩ := hy
          exact hl slot e x (by simp) hf
    simp only [scanProcessed, h1] at h
    split at h
    · split at h
      · cases h; exact ⟨o1, rfl, h2⟩
      · exact ih (fun k e x he => hl k e x (by simp [he])) h2 h
    · cases h; exact ⟨o, rfl, ho⟩

theorem From.source {X : Codecs} {g : List Pubkey} {S : AccountData → Prop} {x : ProgramAccount} (h : From X g S x) :
    ∃ a, S a ∧ a.pubkey = x.pubkey ∧ From X g (· = a) x := by
  cases h with
  | token h1 h2 h3 h4 h5 h6 h7 h8 h9 => exact ⟨_, h1, h7.symm, .token rfl h2 h3 h4 h5 h6 h7 h8 h9⟩
  | mint h1 h2 h3 h4 h5 h6 h7 => exact ⟨_, h1, h6.symm, .mint rfl h2 h3 h4 h5 h6 h7⟩
  | multisig h1 h2 h3 h4 h5 h6 h7 => exact ⟨_, h1, rfl, .multisig rfl h2 h3 h4 h5 h6 h7⟩
  | deleted h1 h2 => exact ⟨_, h1, rfl, .deleted rfl h2⟩

/-- A step of a thread that reads one account. -/
theorem held_out {E : Env} {log : List (Nat × Event)} {g : List Pubkey} (hg : g.length ≤ 2 ^ 32) {H : Past} {σ : Orders} {s s' : TokenStore}
    (hs : StoreOK E.codecs log g s) (cur : ∀ a, Stocked s a → H log.length a) {p : Pc} {n : Next} {pk : Pubkey}
    (hp : HeldPc E.codecs log g H pk p) (h : Out E σ s p s' n) :
    (∃ q, n = .go q ∧ HeldPc E.codecs log g H pk q) ∨
      ∃ o, n = .ret (.account o) ∧ ∀ b, o = some b → Ans E.codecs log H pk b := by
  have src : ∀ k e x, BMap.find s.processed k = some e → e.accounts.find pk = some x → Src E.codecs log g H pk k x.account := by
    intro k e x h1 h2
    have hk := hs.proc.key _ _ _ _ h1 h2
    obtain ⟨a, ⟨h3, h4, h5⟩, h6, h7⟩ := (hs.procFrom _ _ _ _ h1 h2).source
    have h6 := h6.trans hk
    refine .inr ⟨a, ⟨log.length, le_refl _, cur a ⟨x, ?_, by omega⟩⟩, h4, h6, h3, h7⟩
    simp [stateAt, h4, h6, h1, h2]
  have conf : ∀ fuel m o r, (∀ x k, o = some (x, k) → Src E.codecs log g H pk k x.account) →
      getConfirmed fuel s.processed [pk] [o] m = .ok r → ∃ o', r = [o'] ∧ ∀ x k, o' = some (x, k) → Src E.codecs log g H pk k x.account := by
    intro fuel m o r ho hr
    obtain ⟨h1, h2⟩ := getConfirmed_spec fuel (by simp) hr
    obtain ⟨h3, h4⟩ := h2 0 pk rfl
    match r, h1 with
    | [o'], _ =>
      refine ⟨o', rfl, fun x k hx => ?_⟩
      subst hx
      cases o with
      | some v =>
        have := h3 v rfl
        simp only [List.getElem?_cons_zero, Option.some.injEq] at this
        exact ho x k (by rw [this])
      | none =>
        obtain ⟨e, h5, h6⟩ := newest_mem ((h4 rfl x k).1 rfl)
        exact src k e x h5 h6
  have next : ∀ o' nx, (∀ x k, o' = some (x, k) → Src E.codecs log g H pk k x.account) → (Scan.one pk).next [o'] = .ok nx →
      ∃ q, nx = .go q ∧ HeldPc E.codecs log g H pk q := by
    intro o' nx ho hn
    cases o' with
    | none =>
      simp only [Scan.next, List.head?_cons, Run.unwrap, Run.ok_bind, Run.pure_eq, Run.ok.injEq] at hn
      exact ⟨_, hn.symm, trivial⟩
    | some v =>
      obtain ⟨x, k⟩ := v
      simp only [Scan.next, List.head?_cons, Run.unwrap, Run.ok_bind, Run.pure_eq, Run.ok.injEq] at hn
      refine ⟨_, hn.symm, fun y hy => ?_, by simp⟩
      simp only [List.mem_singleton] at hy
      exact ⟨_, _, _, hy, ho x k rfl⟩
  have scan : ∀ m r b, scanProcessed [pk] m s.processed.reverse [none] = (r, b) →
      ∃ o', r = [o'] ∧ ∀ x k, o' = some (x, k) → Src E.codecs log g H pk k x.account := by
    intro m r b hr
    exact scan_one (Q := fun x k => Src E.codecs log g H pk k x.account) _ (fun k e x he hx =>
      src k e x ((BMap.mem_iff_find hs.proc.sorted _ _).1 (List.mem_reverse.1 he)) hx) (by simp) hr
  cases h <;> try exact hp.elim
  case scanSlot c j => cases j <;> first | exact hp.elim | exact .inl ⟨_, rfl, hp⟩
  case scanConfirmed m j r hf hj =>
    cases j <;> try exact hp.elim
    cases hp
    obtain ⟨o', rfl, h2⟩ := conf _ _ none _ (by simp) hf
    exact .inl (next _ _ h2 hj)
  case scanAgain m j r hf =>
    cases j <;> try exact hp.elim
    cases hp
    obtain ⟨o', rfl, h2⟩ := scan _ _ _ hf
    exact .inl ⟨_, rfl, rfl, rfl, fun x k hx => h2 x k (List.mem_singleton.1 hx).symm⟩
  case scanDone m j r hf hj =>
    cases j <;> try exact hp.elim
    cases hp
    obtain ⟨o', rfl, h2⟩ := scan _ _ _ hf
    exact .inl (next _ _ h2 hj)
  case rescan m ret j r hf hj =>
    cases j <;> try exact hp.elim
    obtain ⟨rfl, h1, h2⟩ := hp
    match ret, h1 with
    | [o], _ =>
      obtain ⟨o', rfl, h3⟩ := conf _ _ o _ (fun x k hx => h2 x k (by simp [hx])) hf
      exact .inl (next _ _ h3 hj)
  case finMultisigSlot pk' m r hr =>
    refine .inr ⟨_, rfl, fun b hb => .inl ?_⟩
    cases hb
    simp only [multisigToSolana, Run.bind_eq_ok, Run.pure_eq, Run.ok.injEq] at hr
    obtain ⟨d, -, rfl⟩ := hr
    exact hs.slots.finalized
  case finMintSlot pk' i m =>
    refine .inr ⟨_, rfl, fun b hb => .inl ?_⟩
    cases hb
    exact hs.slots.finalized
  case finBucketN => exact .inr ⟨_, rfl, by simp⟩
  case finAccountsN => exact .inr ⟨_, rfl, by simp⟩
  case finSlot t =>
    refine .inl ⟨_, rfl, fun x hx => ?_, by simp⟩
    simp only [List.mem_singleton] at hx
    exact ⟨_, _, _, hx, .inl hs.slots.finalized⟩
  case convertEnd out j =>
    cases j <;> try exact hp.elim
    exact .inr ⟨_, rfl, fun b hb => hp.2 b (List.mem_of_head? hb)⟩
  case keep b l out j =>
    cases j <;> try exact hp.elim
    obtain ⟨y, k, v, h1, -⟩ := hp.1 (.keep b) List.mem_cons_self
    cases h1
  case conv x slot wv l out j r hr =>
    cases j <;> try exact hp.elim
    obtain ⟨y, k, v, h1, h2⟩ := hp.1 (.conv x slot wv) List.mem_cons_self
    cases h1
    refine .inl ⟨_, rfl, fun z hz => hp.1 z (List.mem_cons_of_mem _ hz), fun b hb => ?_⟩
    rcases List.mem_append.1 hb with hb | hb
    · exact hp.2 b hb
    · simp only [Option.mem_toList] at hb
      cases hb
      rcases h2 with h2 | ⟨a, h3, h4, h5, h6, h7⟩
      · refine .inl ?_
        have : b.slot = slot := by
          cases x with
          | token t =>
            simp only [ProgramAccount.toSolana, tokenToSolana] at hr
            split at hr
            · simp at hr
            · simp only [Run.bind_eq_ok, Run.pure_eq, Run.ok.injEq, Option.some.injEq] at hr
              obtain ⟨-, -, rfl⟩ := hr
              rfl
          | mint m => simp only [ProgramAccount.toSolana, Run.ok.injEq, Option.some.injEq] at hr; subst hr; rfl
          | multisig m pk =>
            simp only [ProgramAccount.toSolana, multisigToSolana, Run.bind_eq_ok, Run.pure_eq, Run.ok.injEq, Option.some.injEq] at hr
            obtain ⟨_, ⟨_, -, rfl⟩, rfl⟩ := hr
            rfl
          | deleted => simp [ProgramAccount.toSolana] at hr
        rw [this]; exact h2
      · obtain ⟨h8, -, h9, -⟩ := back hg h7 hs.mintKeys hr
        exact .inr ⟨a, h3, h4.trans h9.symm, h5, h6, h8⟩
  all_goals exact .inl ⟨_, rfl, trivial⟩

/-! ## Executions -/

/-- What was stored at some time, and what reads have to show because of it. -/
structure Steady (E : Env) (w : World) (g : List Pubkey) (H : Past) : Prop where
  cur : ∀ a, Stocked w.st a → H w.log.length a
  stored : ∀ n a, H n a → Kept w.log a.slot → Stocked w.st a
  read : ∀ t a, Since w.log t (.get a.pubkey .processed) (By H a) → Undisturbed .processed a w.log →
    ReadPc E.codecs w.log g a .processed (w.pc t)
  reads : ∀ pre post t a o, w.log = pre ++ (t, .ret (.account o)) :: post → Since pre t (.get a.pubkey .processed) (By H a) →
    Undisturbed .processed a pre → ShowsAsNew E.codecs pre a o
  held : ∀ t pk c, LastCall w.log t (.get pk c) → HeldPc E.codecs w.log g H pk (w.pc t)
  answers : ∀ pre post t pk c b, w.log = pre ++ (t, .ret (.account (some b))) :: post → LastCall pre t (.get pk c) →
    Ans E.codecs pre H pk b

theorem steady_init (E : Env) : Steady E World.init [] (fun _ _ => False) := by
  have nolast : ∀ t k, ¬ LastCall [] t k := by rintro t k ⟨pre, mid, h, -⟩; simp at h
  refine ⟨?_, fun _ _ h => h.elim, fun t a h => absurd h.lastCall (nolast _ _), ?_, fun t pk c h => absurd h (nolast _ _), ?_⟩
  · rintro a ⟨x, h, -⟩; simp [World.init, TokenStore.empty, stateAt] at h
  · intro pre post t a o h; simp [World.init] at h
  · intro pre post t pk c b h; simp [World.init] at h

/-- What was stored until the next state. -/
def Past.next (H : Past) (w : World) : Past := fun n a => H n a ∨ (n = w.log.length ∧ Stocked w.st a)

theorem By.old {H : Past} {w : World} {a : AccountData} {pre : List (Nat × Event)} (hp : pre.length < w.log.length)
    (h : By (H.next w) a pre) : By H a pre := by
  obtain ⟨n, h1, h2 | ⟨rfl, -⟩⟩ := h
  · exact ⟨n, h1, h2⟩
  · omega

theorem Since.old {H : Past} {w : World} {a : AccountData} {log : List (Nat × Event)} (hl : log <+: w.log) {t : Nat} {k : Call}
    (h : Since log t k (By (H.next w) a)) : Since log t k (By H a) := by
  obtain ⟨pre, mid, rfl, h2, h3⟩ := h
  refine ⟨pre, mid, rfl, h2, h3.old ?_⟩
  have := hl.length_le
  simp only [List.length_append, List.length_cons] at this
  omega

theorem steady_step {E : Env} {w w' : World} (reach : Reachable E w) (hs : Step E w w') (hb : submits w'.log ≤ 2 ^ 31)
    {g g' : List Pubkey} (hg' : g <+: g') (hinv : InvAt E w g) {H : Past} (hd : Steady E w g H) : Steady E w' g' (H.next w') := by
  obtain ⟨N, -, hc, hst, hsv, -⟩ := hinv
  have hb' : submits w.log ≤ 2 ^ 31 := Nat.le_trans (step_submits hs) hb
  have hg : g.length ≤ 2 ^ 32 := by omega
  have up : ∀ n a, H n a → H.next w' n a := fun n a h => .inl h
  have cur : ∀ a, Stocked w'.st a → H.next w' w'.log.length a := fun a h => .inr ⟨rfl, h⟩
  cases hs with
  | work hwk =>
    obtain ⟨t, hi, -, h⟩ := work_cases hwk
    obtain ⟨k, hk⟩ := (busy_iff reach t).1 (active_ne hi)
    have hv : Serves E.codecs w.log g w.st.tokens.accounts.length k (w.pc t) := by
      rcases hsv t k hk with h | ⟨l, h⟩
      · exact h
      · rw [h] at hi; exact hi.elim
    -- the condition of a read
    have cond : ∀ a, (∃ u, Since w.log u (.get a.pubkey .processed) (By H a)) → Undisturbed .processed a w.log →
        w.st.confirmedSlot < a.slot ∧ Stocked w.st a := by
      rintro a ⟨u, hs⟩ ⟨h1, h2⟩
      obtain ⟨pre, hp, n, h3, h4⟩ := hs.prefix
      refine ⟨?_, hd.stored n a h4 h1⟩
      rcases h2 with ⟨-, h5, h6⟩ | ⟨h, -⟩
      · rcases hst.slots.confirmed with h | h
        · omega
        · exact h6 _ h
      · simp at h
    have ret : ∀ s r, w' = { st := s, pc := upd w.pc t .idle, log := w.log ++ [(t, .ret r)] } →
        (∀ a, Stocked w.st a → Kept w.log a.slot → Stocked s a) →
        (∀ a o, r = .account o → Since w.log t (.get a.pubkey .processed) (By H a) → Undisturbed .processed a w.log →
          ShowsAsNew E.codecs w.log a o) →
        (∀ pk c b, r = .account (some b) → LastCall w.log t (.get pk c) → Ans E.codecs w.log H pk b) →
        Steady E w' g' (H.next w') := by
      intro s r e h1 h2 h3
      have hlog : w'.log = w.log ++ [(t, Event.ret r)] := by rw [e]
      have hst' : w'.st = s := by rw [e]
      have hpc : w'.pc = upd w.pc t .idle := by rw [e]
      have hl : w.log <+: w'.log := by rw [hlog]; exact List.prefix_append _ _
      refine ⟨cur, fun n a ha hk => ?_, fun u a hu hk => ?_, fun pre post u a o he hu hk => ?_, fun u pk c hu => ?_,
        fun pre post u pk c b he hu => ?_⟩
      · rcases ha with ha | ⟨-, ha⟩
        · rw [hst']
          exact h1 a (hd.stored n a ha (hk.anti hl)) (hk.anti hl)
        · exact ha
      · have hu := hu.old (List.prefix_refl _)
        rw [hlog] at hu
        rcases since_snoc hu with ⟨-, h, -⟩ | ⟨hne, hu⟩
        · cases h
        · rw [hpc, upd_other (Ne.symm hne)]
          exact (hd.read u a hu (hk.anti hl)).mono hl hg'
      · have hu := hu.old (by rw [he]; exact List.prefix_append _ _)
        rw [hlog] at he
        rcases snoc_ret he with ⟨e1, e2, hr⟩ | ⟨post', h⟩
        · rw [e1, e2] at hu; rw [e1] at hk ⊢
          exact h2 a o (Event.ret.inj hr) hu hk
        · exact hd.reads pre post' u a o h hu hk
      · rw [hlog] at hu
        rcases lastCall_snoc.1 hu with ⟨-, h⟩ | ⟨hne, hu⟩
        · cases h
        · rw [hpc, upd_other (Ne.symm hne)]
          exact (hd.held u pk c hu).mono hl up hg'
      · rw [hlog] at he
        rcases snoc_ret he with ⟨e1, e2, hr⟩ | ⟨post', h⟩
        · rw [e1, e2] at hu; rw [e1]
          exact (h3 pk c b (Event.ret.inj hr) hu).mono (List.prefix_refl _) up
        · exact (hd.answers pre post' u pk c b h hu).mono (List.prefix_refl _) up
    have go : ∀ s p, w' = { w with st := s, pc := upd w.pc t p } →
        (∀ a, Stocked w.st a → Kept w.log a.slot → Stocked s a) →
        (∀ a, Since w.log t (.get a.pubkey .processed) (By H a) → Undisturbed .processed a w.log →
          ReadPc E.codecs w.log g a .processed p) →
        (∀ pk c, LastCall w.log t (.get pk c) → HeldPc E.codecs w.log g H pk p) →
        Steady E w' g' (H.next w') := by
      intro s p e h1 h2 h3
      have hlog : w'.log = w.log := by rw [e]
      have hst' : w'.st = s := by rw [e]
      have hpc : w'.pc = upd w.pc t p := by rw [e]
      have hl : w.log <+: w'.log := by rw [hlog]
      refine ⟨cur, fun n a ha hk => ?_, fun u a hu hn => ?_, fun pre post u a o he hu hk => ?_, fun u pk c hu => ?_,
        fun pre post u pk c b he hu => ?_⟩
      · rcases ha with ha | ⟨-, ha⟩
        · rw [hst']
          exact h1 a (hd.stored n a ha (hk.anti hl)) (hk.anti hl)
        · exact ha
      · have hu := hu.old (List.prefix_refl _)
        rw [hlog] at hu hn ⊢
        rw [hpc]
        by_cases e : u = t
        · subst e; rw [upd_self]; exact (h2 a hu hn).mono (List.prefix_refl _) hg'
        · rw [upd_other e]; exact (hd.read u a hu hn).mono (List.prefix_refl _) hg'
      · have hu := hu.old (by rw [he]; exact List.prefix_append _ _)
        rw [hlog] at he
        exact hd.reads pre post u a o he hu hk
      · rw [hlog] at hu ⊢
        rw [hpc]
        by_cases e : u = t
        · subst e; rw [upd_self]; exact (h3 pk c hu).mono (List.prefix_refl _) up hg'
        · rw [upd_other e]; exact (hd.held u pk c hu).mono (List.prefix_refl _) up hg'
      · rw [hlog] at he
        exact (hd.answers pre post u pk c b he hu).mono (List.prefix_refl _) up
    rcases h with ⟨σ, s, p, ho, e, -⟩ | ⟨σ, s, r, ho, e⟩ | ⟨σ, hp, e⟩ | ⟨σ, hp, e⟩
    · refine go s p e (fun a ⟨x, h1, h2⟩ h3 => out_keeps hst hv ho h3 h1 h2) (fun a h1 h2 => ?_) fun pk c h1 => ?_
      · obtain ⟨h3, x, h4, h5⟩ := cond a ⟨t, h1⟩ h2
        rcases read_out hg hst h4 h5 (.inl ⟨rfl, h3⟩) (hd.read t a h1 h2) ho with ⟨q, h6, h7⟩ | ⟨l, h6, -⟩
        · cases h6; exact h7
        · cases h6
      · rcases held_out hg hst hd.cur (hd.held t pk c h1) ho with ⟨q, h6, h7⟩ | ⟨l, h6, -⟩
        · cases h6; exact h7
        · cases h6
    · refine ret s r e (fun a ⟨x, h1, h2⟩ h3 => out_keeps hst hv ho h3 h1 h2) (fun a o he h1 h2 => ?_) fun pk c b he h1 => ?_
      · subst he
        obtain ⟨h3, x, h4, h5⟩ := cond a ⟨t, h1⟩ h2
        rcases read_out hg hst h4 h5 (.inl ⟨rfl, h3⟩) (hd.read t a h1 h2) ho with ⟨q, h6, h7⟩ | ⟨l, h6, h7⟩
        · cases h6
        · cases h6; exact h7
      · subst he
        rcases held_out hg hst hd.cur (hd.held t pk c h1) ho with ⟨q, h6, h7⟩ | ⟨l, h6, h7⟩
        · cases h6
        · cases h6; exact h7 b rfl
    · exact ret w.st .panicked e (fun a h _ => h) (fun a o he => by cases he) fun pk c b he => by cases he
    · exact go w.st _ e (fun a h _ => h) (fun a h1 h2 => trivial) fun pk c h1 => trivial
  | call t k hi =>
    generalize hw : (World.mk w.st (upd w.pc t k.start) (w.log ++ [(t, .call k)])) = w' at *
    have hlog : w'.log = w.log ++ [(t, Event.call k)] := by rw [← hw]
    have hst' : w'.st = w.st := by rw [← hw]
    have hpc : w'.pc = upd w.pc t k.start := by rw [← hw]
    have hl : w.log <+: w'.log := by rw [hlog]; exact List.prefix_append _ _
    refine ⟨cur, fun n a ha hk => ?_, fun u a hu hk => ?_, fun pre post u a o he hu hk => ?_, fun u pk c hu => ?_,
      fun pre post u pk c b he hu => ?_⟩
    · rcases ha with ha | ⟨-, ha⟩
      · rw [hst']
        exact hd.stored n a ha (hk.anti hl)
      · exact ha
    · have hu := hu.old (List.prefix_refl _)
      rw [hlog] at hu
      rw [hpc]
      rcases since_snoc hu with ⟨rfl, h, -⟩ | ⟨hne, hu⟩
      · cases h
        rw [upd_self]
        exact ⟨rfl, rfl⟩
      · rw [upd_other (Ne.symm hne)]
        exact (hd.read u a hu (hk.anti hl)).mono hl hg'
    · have hu := hu.old (by rw [he]; exact List.prefix_append _ _)
      rw [hlog] at he
      rcases snoc_ret he with ⟨rfl, rfl, h⟩ | ⟨post', h⟩
      · cases h
      · exact hd.reads pre post' u a o h hu hk
    · rw [hlog] at hu
      rw [hpc]
      rcases lastCall_snoc.1 hu with ⟨rfl, h⟩ | ⟨hne, hu⟩
      · cases h
        rw [upd_self]
        simp only [Call.start]
        split
        · trivial
        · exact rfl
      · rw [upd_other (Ne.symm hne)]
        exact (hd.held u pk c hu).mono hl up hg'
    · rw [hlog] at he
      rcases snoc_ret he with ⟨rfl, rfl, h⟩ | ⟨post', h⟩
      · cases h
      · exact (hd.answers pre post' u pk c b h hu).mono (List.prefix_refl _) up

theorem steady {E : Env} {w : World} (hr : Reachable E w) (hb : submits w.log ≤ 2 ^ 31) :
    ∃ g H, InvAt E w g ∧ Steady E w g H := by
  induction hr with
  | refl => exact ⟨[], _, inv_init E, steady_init E⟩
  | @tail w w' hw hs ih =>
    obtain ⟨g, H, h1, h2⟩ := ih (Nat.le_trans (step_submits hs) hb)
    obtain ⟨g', h3, h4⟩ := inv_step hw hs hb h1
    exact ⟨g', _, h4, steady_step hw hs hb h3 h1 h2⟩

end LAM.TokConc
