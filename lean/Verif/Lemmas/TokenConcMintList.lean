import Verif.Lemmas.TokenConcMints
/-!
# Concurrent calls of the token program store: finalized mints that are not closed are in the answers of queries for mints
-/
namespace LAM.TokConc
open Token Run Spec ProcStore
open Spl (tokenId token2022Id)

theorem AlwaysToken.anti {pk : Pubkey} {log log' : List (Nat × Event)} (h : log <+: log') (hn : AlwaysToken pk log') :
    AlwaysToken pk log := fun b hb => hn b (hb.mono h)

theorem AlwaysToken.open {pk : Pubkey} {log : List (Nat × Event)} (hn : AlwaysToken pk log) : NeverGone pk log :=
  fun b hb hp hg => hg _ (hn b hb hp)

/-- A query for mints, when the mint is stored. -/
def ListingMint (E : Env) (pk : Pubkey) (g : List Pubkey) (s : TokenStore) : Pc → Prop
  | .loops _ | .gpaStart .. => True
  | .gpaMints _ _ shards out => (∃ b ∈ out, b.pubkey = pk) ∨
      ∃ i m, Issued g i pk ∧ s.mints.find i = some m ∧ E.mintsShard i ∈ shards
  | .scanSlot _ (.overlay l) | .scan _ _ (.overlay l) | .rescan _ _ (.overlay l) => ∃ b ∈ l, b.pubkey = pk
  | .convert items out _ => InAnswer pk items out
  | _ => False

theorem ListingMint.mono {E : Env} {pk : Pubkey} {g g' : List Pubkey} (hg : g <+: g') {s s' : TokenStore}
    (h : ∀ i m, Issued g i pk → s.mints.find i = some m → ∃ m', s'.mints.find i = some m') {p : Pc}
    (hp : ListingMint E pk g s p) : ListingMint E pk g' s' p := by
  cases p <;> try exact hp
  case scanSlot j => cases j <;> exact hp
  case scan j => cases j <;> exact hp
  case rescan j => cases j <;> exact hp
  case gpaMints =>
    rcases hp with h1 | ⟨i, m, h1, h2, h3⟩
    · exact .inl h1
    · obtain ⟨m', h4⟩ := h i m h1 h2
      exact .inr ⟨i, m', h1.mono hg, h4, h3⟩

theorem scan_listingMint {X : Codecs} {log : List (Nat × Event)} {g : List Pubkey} {pk : Pubkey} (hn : NeverGone pk log) {c : Commitment}
    {l : List AccountData} (hl : ∃ b ∈ l, b.pubkey = pk) {r : Answers} (hr : AnsOK X log g c (Scan.overlay l).keys r) :
    InAnswer pk (overlayItems l r) [] := by
  obtain ⟨b, hb, hp⟩ := hl
  obtain ⟨i, hi⟩ := List.getElem?_of_mem hb
  refine overlayItems_at l r i b hi hp fun x k hx => ?_
  obtain ⟨h1, h2, -⟩ := hr.2 i pk x k (by simp [Scan.keys, hi, hp]) hx
  exact ⟨h2.solid' fun a ha he => hn.open ha.1.submitted (he.trans h1), h1⟩

theorem filterRun_keeps {α : Type} {f : α → Run Bool} : ∀ {l r : List α}, TokenStorage.filterRun f l = .ok r →
    ∀ x ∈ l, f x = .ok true → x ∈ r := by
  intro l
  induction l with
  | nil => intro r _ x hx; simp at hx
  | cons a l ih =>
    intro r h x hx hf
    simp only [TokenStorage.filterRun, Run.bind_eq_ok, Run.pure_eq, Run.ok.injEq] at h
    obtain ⟨b, hb, ys, hys, rfl⟩ := h
    rcases List.mem_cons.1 hx with rfl | hx
    · rw [hf] at hb; cases hb; simp
    · have := ih hys x hx hf
      split <;> simp [this]

/-- A mint of the Token program is shown with 82 bytes. -/
theorem mint_passes (X : Codecs) {m : MintAccount} (h : m.program = .tokenProgram) (slot : Nat) :
    (do let d ← (mintToSolana m slot 0).account.data.data X
        Run.allM (fun f => f.allows X d) [AccountFilterType.datasize 82] : Run Bool) = .ok true := by
  have : (mintBytes m).length = 82 := by
    simp only [mintBytes, h]
    exact Spl.length_packMint _
  simp [mintToSolana, solanaAccount, Data.data, Run.allM, AccountFilterType.allows, this]

theorem out_listingMint {E : Env} {log : List (Nat × Event)} {g : List Pubkey} (hg : g.length ≤ 2 ^ 32) {σ : Orders} {s s' : TokenStore}
    {n : Nat} {p : Pc} {pk program : Pubkey} {c : Commitment} (hn : AlwaysToken pk log)
    (hs : StoreOK E.codecs log g s) (hv : Serves E.codecs log g n (.gpa program (some [.datasize 82]) c) p)
    (hf : MintAt pk s) (hp : ListingMint E pk g s p) {nx : Next} (ho : Out E σ s p s' nx) :
    (∀ p', nx = .go p' → ListingMint E pk g s p') ∧ ∀ l, nx = .ret (.accounts (.ok l)) → ∃ b ∈ l, b.pubkey = pk := by
  have hnone : ownerMintFilter program [.datasize 82] = (none, none) := by
    simp [ownerMintFilter, FilterScan.step]
  have go : ∀ {q}, nx = .go q → ListingMint E pk g s q → (∀ p', nx = .go p' → ListingMint E pk g s p') ∧
      ∀ l, nx = .ret (.accounts (.ok l)) → ∃ b ∈ l, b.pubkey = pk := by
    rintro q rfl h
    exact ⟨by rintro p' ⟨⟩; exact h, by simp⟩
  cases ho
  case gpaErr => exact ⟨by simp, by simp⟩
  case gpaOwner h => cases hv; rw [hnone] at h; cases h
  case gpaMint h => cases hv; rw [hnone] at h; cases h
  case gpaMints =>
    obtain ⟨i, m, h1, h2⟩ := hf
    exact go rfl (.inr ⟨i, m, hs.table.index _ _ h1, h2, List.mem_range.2 (E.mintsShard_lt i)⟩)
  case mintsEnd out =>
    rcases hp with ⟨b, h1, h2⟩ | ⟨i, m, -, -, h⟩
    · exact go rfl (.inr (.inl ⟨b, List.mem_map.2 ⟨b, h1, rfl⟩, h2⟩))
    · simp at h
  case mints q slot k shards out l h =>
    refine go rfl ?_
    rcases hp with ⟨b, h1, h2⟩ | ⟨i, m, h1, h2, h3⟩
    · exact .inl ⟨b, by simp [h1], h2⟩
    · rcases List.mem_cons.1 h3 with h3 | h3
      · have hmem := AMap.mem_of_find h2
        obtain ⟨h4, h5⟩ := hs.mints i m hmem
        have hpk : m.pubkey = pk := h4.unique hg h1
        have hprog : m.program = .tokenProgram := by
          cases h5 with
          | mint k1 k2 k3 k4 k5 k6 k7 =>
            have := hn _ k1.submitted (k6.symm.trans hpk)
            rw [k7]
            rename_i p _ _
            cases p with
            | tokenProgram => rfl
            | token2022Program => exact absurd (k2.2.symm.trans this.2) (by decide)
        refine .inl ⟨mintToSolana m slot 0, ?_, hpk⟩
        have := filterRun_keeps h (mintToSolana m slot 0) (List.mem_map.2 ⟨(i, m), List.mem_filter.2 ⟨hmem, by simp [h3]⟩, rfl⟩)
          (by cases hv; exact mint_passes E.codecs hprog slot)
        simp [this]
      · exact .inr ⟨i, m, h1, h2, h3⟩
  case scanSlot j =>
    cases j with
    | one => exact hp.elim
    | overlay l => exact go rfl hp
  case scanConfirmed m j r h1 h2 =>
    cases j with
    | one => exact hp.elim
    | overlay l =>
      simp only [Scan.next, Run.ok.injEq] at h2
      cases hv with
      | scan hj hi =>
        exact go h2.symm (scan_listingMint (c := .confirmed) hn.open hp (confirmed_ok hs (ans_nil _ _ _ _ _) (fun _ => hi) h1))
  case scanAgain m j r h1 =>
    cases j with
    | one => exact hp.elim
    | overlay l => exact go rfl hp
  case scanDone m j r h1 h2 =>
    cases j with
    | one => exact hp.elim
    | overlay l =>
      simp only [Scan.next, Run.ok.injEq] at h2
      exact go h2.symm (scan_listingMint hn.open hp (scan_ok hs _ (fun e he => by simpa using he) (ans_nil _ _ _ _ _) h1))
  case rescan m ret j r h1 h2 =>
    cases j with
    | one => exact hp.elim
    | overlay l =>
      simp only [Scan.next, Run.ok.injEq] at h2
      cases hv with
      | rescan hj hr => exact go h2.symm (scan_listingMint hn.open hp (confirmed_ok hs hr (by simp) h1))
  case convertEnd out j =>
    have hout : ∃ b ∈ out, b.pubkey = pk := by
      rcases hp with h | ⟨b, h, -⟩ | ⟨x, k, v, h, -⟩
      · exact h
      · simp at h
      · simp at h
    cases hv with
    | convert h1 h2 h3 =>
      cases j <;> try exact h1.elim
      · simp only [Job.next]
        split
        · exact ⟨by simp, by rintro l ⟨⟩; exact hout⟩
        · exact ⟨by rintro p' ⟨⟩; exact hout, by simp⟩
      · exact ⟨by simp [Job.next], by rintro l ⟨⟩; exact hout⟩
  case keep b l out j =>
    refine go rfl ?_
    rcases hp with ⟨b', h, h'⟩ | ⟨b', h, h'⟩ | ⟨x, k, v, h, h'⟩
    · exact .inl ⟨b', by simp [h], h'⟩
    · rcases List.mem_cons.1 h with h | h
      · cases h; exact .inl ⟨b, by simp, h'⟩
      · exact .inr (.inl ⟨b', h, h'⟩)
    · rcases List.mem_cons.1 h with h | h
      · cases h
      · exact .inr (.inr ⟨x, k, v, h, h'⟩)
  case conv y slot wv l out j r hr =>
    refine go rfl ?_
    rcases hp with ⟨b', h, h'⟩ | ⟨b', h, h'⟩ | ⟨x, k, v, h, h'⟩
    · exact .inl ⟨b', by simp [h], h'⟩
    · rcases List.mem_cons.1 h with h | h
      · cases h
      · exact .inr (.inl ⟨b', h, h'⟩)
    · rcases List.mem_cons.1 h with h | h
      · cases h
        obtain ⟨b, rfl, hb⟩ := h'.1 _ _ _ _ hr
        exact .inl ⟨b, by simp, hb.trans h'.2⟩
      · exact .inr (.inr ⟨x, k, v, h, h'⟩)
  all_goals exact hp.elim

/-! ## Executions -/

/-- What holds of the queries for mints. -/
structure ListsMint (E : Env) (a : AccountData) (w : World) (g : List Pubkey) : Prop where
  query : ∀ t program c, Since w.log t (.gpa program (some [.datasize 82]) c) (Installed · a) →
    ListingMint E a.pubkey g w.st (w.pc t)
  queries : ∀ pre post t program c l, w.log = pre ++ (t, .ret (.accounts (.ok l))) :: post →
    Since pre t (.gpa program (some [.datasize 82]) c) (Installed · a) → ∃ b ∈ l, b.pubkey = a.pubkey

theorem listsMint_step {E : Env} {w w' : World} (reach : Reachable E w) (hs : Step E w w') (hb : submits w'.log ≤ 2 ^ 31)
    {g g' : List Pubkey} (hgg : g <+: g') {a : AccountData} (hinv : InvAt E w g)
    (hn : AlwaysToken a.pubkey w'.log) (hk : KeepsMint a w g) (hd : ListsMint E a w g) : ListsMint E a w' g' := by
  have hnw := hn.anti (step_prefix hs)
  obtain ⟨N, -, hc, hst, hsv, -⟩ := hinv
  have hg : g.length ≤ 2 ^ 32 := by
    have := Nat.le_trans (step_submits hs) hb
    omega
  have queries' : ∀ {x r}, (∀ l, r = .accounts (.ok l) → ∀ program c,
      Since w.log x (.gpa program (some [.datasize 82]) c) (Installed · a) →
      ∃ b ∈ l, b.pubkey = a.pubkey) →
      ∀ pre post t program c l, w.log ++ [(x, .ret r)] = pre ++ (t, .ret (.accounts (.ok l))) :: post →
        Since pre t (.gpa program (some [.datasize 82]) c) (Installed · a) → ∃ b ∈ l, b.pubkey = a.pubkey := by
    intro x r h pre post t program c l he
    rcases snoc_ret he with ⟨rfl, rfl, h'⟩ | ⟨post', h'⟩
    · exact h l (Event.ret.inj h') program c
    · exact hd.queries pre post' t program c l h'
  -- the end of a call
  have ret : ∀ t s r, (∀ i m, Issued g i a.pubkey → w.st.mints.find i = some m → ∃ m', s.mints.find i = some m') →
      (∀ l, r = .accounts (.ok l) → ∀ program c, Since w.log t (.gpa program (some [.datasize 82]) c) (Installed · a) →
        ∃ b ∈ l, b.pubkey = a.pubkey) →
      ListsMint E a { st := s, pc := upd w.pc t .idle, log := w.log ++ [(t, .ret r)] } g' := by
    intro t s r h1 h2
    refine ⟨fun u program c hu => ?_, queries' h2⟩
    rcases since_snoc hu with ⟨-, h, -⟩ | ⟨hne, hu⟩
    · cases h
    · show ListingMint E a.pubkey g' s (upd w.pc t .idle u)
      rw [upd_other (Ne.symm hne)]
      exact (hd.query u program c hu).mono hgg h1
  -- a step inside a call
  have go : ∀ t s p, (∀ i m, Issued g i a.pubkey → w.st.mints.find i = some m → ∃ m', s.mints.find i = some m') →
      (∀ program c, Since w.log t (.gpa program (some [.datasize 82]) c) (Installed · a) → ListingMint E a.pubkey g' s p) →
      ListsMint E a { w with st := s, pc := upd w.pc t p } g' := by
    intro t s p h1 h2
    refine ⟨fun u program c hu => ?_, hd.queries⟩
    show ListingMint E a.pubkey g' s (upd w.pc t p u)
    by_cases e : u = t
    · subst e; rw [upd_self]; exact h2 program c hu
    · rw [upd_other e]; exact (hd.query u program c hu).mono hgg h1
  cases hs with
  | work hwk =>
    obtain ⟨t, σ, hi, h⟩ := work_exec hwk
    obtain ⟨k, hlk⟩ := (busy_iff reach t).1 (active_ne hi)
    have hv : Serves E.codecs w.log g w.st.tokens.accounts.length k (w.pc t) := by
      rcases hsv t k hlk with h | ⟨l, h⟩
      · exact h
      · rw [h] at hi; exact hi.elim
    have ls : ∀ {program c s nx}, Out E σ w.st (w.pc t) s nx →
        Since w.log t (.gpa program (some [.datasize 82]) c) (Installed · a) →
        (∀ p', nx = .go p' → ListingMint E a.pubkey g w.st p') ∧
          ∀ l, nx = .ret (.accounts (.ok l)) → ∃ b ∈ l, b.pubkey = a.pubkey := by
      intro program c s nx ho hsi
      obtain ⟨pre, hpre, hpi⟩ := hsi.prefix
      have hv' : Serves E.codecs w.log g w.st.tokens.accounts.length (.gpa program (some [.datasize 82]) c) (w.pc t) := by
        rw [lastCall_unique hsi.lastCall hlk]; exact hv
      exact out_listingMint hg hnw hst hv' (hk.kept (hpi.mono hpre)) (hd.query t program c hsi) ho
    rcases h with ⟨s, p, he, rfl⟩ | ⟨s, r, he, rfl⟩ | ⟨he, rfl⟩ | ⟨he, l, rfl⟩
    · have ho := exec_out he
      have h1 := fun i m (hi : Issued g i a.pubkey) (hm : w.st.mints.find i = some m) => out_mints hg (hk.apart t) ho hi hm
      exact go t s p h1 fun program c hsi => ((ls ho hsi).1 p rfl).mono hgg h1
    · have ho := exec_out he
      exact ret t s r (fun i m hi hm => out_mints hg (hk.apart t) ho hi hm) fun l e program c hsi => (ls ho hsi).2 l (by rw [e])
    · exact ret t w.st .panicked (fun i m _ h => ⟨m, h⟩) (by simp)
    · exact go t w.st (.loops l) (fun i m _ h => ⟨m, h⟩) fun _ _ _ => trivial
  | call t k hidle =>
    refine ⟨fun u program c hu => ?_, fun pre post u program c l he => ?_⟩
    · show ListingMint E a.pubkey g' w.st (upd w.pc t k.start u)
      rcases since_snoc hu with ⟨rfl, h, -⟩ | ⟨hne, hu⟩
      · cases h; rw [upd_self]; trivial
      · rw [upd_other (Ne.symm hne)]; exact (hd.query u program c hu).mono hgg fun i m _ h => ⟨m, h⟩
    · rcases snoc_ret he with ⟨-, -, h⟩ | ⟨post', h⟩
      · cases h
      · exact hd.queries pre post' u program c l h

theorem listsMint_init (E : Env) (a : AccountData) : ListsMint E a World.init [] := by
  have nolast : ∀ t k, ¬ LastCall [] t k := by rintro t k ⟨pre, mid, h, -⟩; simp at h
  refine ⟨fun t _ c h => absurd h.lastCall (nolast _ _), ?_⟩
  intro pre post t _ c _ h; simp [World.init] at h

/-- The invariant. -/
theorem listsMint {E : Env} {a : AccountData} (ht : IsMint E.codecs a) {w : World} (reach : Reachable E w) (hb : submits w.log ≤ 2 ^ 31)
    (hn : AlwaysToken a.pubkey w.log) : ∃ g, InvAt E w g ∧ KeepsMint a w g ∧ ListsMint E a w g := by
  induction reach with
  | refl => exact ⟨[], inv_init E, keepsMint_init a, listsMint_init E a⟩
  | @tail w w' hw hs ih =>
    obtain ⟨g, h1, h2, h3⟩ := ih (Nat.le_trans (step_submits hs) hb) (hn.anti (step_prefix hs))
    obtain ⟨g', h4, h5⟩ := inv_step hw hs hb h1
    exact ⟨g', h5, keepsMint_step hw hs hb h4 h1 h5 ht hn.open h2, listsMint_step hw hs hb h4 h1 hn h2 h3⟩

end LAM.TokConc
