import Verif.Lemmas.FilterOrder
import Verif.Basic.Toy
/-!
# Which queries an added filter covers: C147
-/
namespace LAM.Props
open Spec

/-- **C147**. After the first filters of a program are added, exactly the queries that ask for all of them, with every pattern
decoded, and otherwise only for filters that come after all of them, are contained. -/
theorem C147_first (X : Codecs) (s s' : SimpleFilterStore) (accounts : List Pubkey) (p : Pubkey)
    (l q : List AccountFilterType) (hp : s.programs p = none)
    (hs : s.addFilter X ⟨accounts, some p, some l⟩ = .ok s') :
    ∃ l', Decoded X l l' ∧ (s'.containsFilter ⟨[], some p, some q⟩ = true ↔ Covered l' q) := by
  simp only [SimpleFilterStore.addFilter, hp, programFilters, firstFilters, Run.bind_eq_ok, Run.pure_eq, Run.ok.injEq] at hs
  obtain ⟨pf, ⟨l', hl', rfl⟩, rfl⟩ := hs
  exact ⟨l', decoded_of_mapRun X l l' hl', by simp [SimpleFilterStore.containsFilter, prefixMatches_covered]⟩

/-- **C147**. Further filters of the program add exactly the queries that cover them as they are written. -/
theorem C147_further (X : Codecs) (s s' : SimpleFilterStore) (accounts : List Pubkey) (p : Pubkey) (L : List FSet)
    (l q : List AccountFilterType) (hp : s.programs p = some (.byFilterType L))
    (hs : s.addFilter X ⟨accounts, some p, some l⟩ = .ok s') :
    s'.containsFilter ⟨[], some p, some q⟩ = true ↔
      s.containsFilter ⟨[], some p, some q⟩ = true ∨ Covered l q := by
  simp only [SimpleFilterStore.addFilter, hp, programFilters, mergeFilters, Run.ok_bind, Run.pure_eq, Run.ok.injEq] at hs
  subst hs
  simp [SimpleFilterStore.containsFilter, hp, ← prefixMatches_covered, List.any_append]

/-- A base58 pattern at offset 3 comes before raw bytes at offset 5, and raw bytes at offset 3 before it. -/
example : let f58 := AccountFilterType.memcmp ⟨3, .base58 [50]⟩
    let later := AccountFilterType.memcmp ⟨5, .bytes [1]⟩
    let earlier := AccountFilterType.memcmp ⟨3, .bytes [1]⟩
    (SimpleFilterStore.empty.addFilters Toy.codecs
        [⟨[], some Toy.prog, some [.datasize 9]⟩, ⟨[], some Toy.prog, some [f58]⟩] >>= fun s =>
      .ok (s.containsFilter ⟨[], some Toy.prog, some [later, f58]⟩, s.containsFilter ⟨[], some Toy.prog, some [f58, earlier]⟩)) =
      .ok (true, false) := by decide +kernel

end LAM.Props
