import Verif.Lemmas.HolesPrint
import Verif.Lemmas.EngText
/-
C81.  The tool get-holes over a dictionary source: the lexeme numbers in use, the repeated ones, the smallest, the largest and
the holes between them.
-/
namespace Libmorph
open Spec

theorem stringLidFrom_lt : ∀ (fuel : Nat) (prev : Byte) (s : List Byte) (n : Nat), stringLidFrom fuel prev s = some n → n < 2 ^ 32 := by
  intro fuel
  induction fuel with
  | zero => intro p s n h; simp [stringLidFrom] at h; omega
  | succ fuel ih =>
    intro p s n h
    rw [stringLidFrom] at h
    split at h
    · simp at h; omega
    · split at h
      · simp only at h
        split at h
        · simp only [Option.some.injEq] at h
          omega
        · split at h
          · simp at h
          · exact ih _ _ _ h
      · exact ih _ _ _ h

theorem getStringLid_lt {s : List Byte} {n : Nat} (h : getStringLid s = some n) : n < 2 ^ 32 := by
  unfold getStringLid at h
  split at h
  · simp at h
  · exact stringLidFrom_lt _ _ _ _ h

theorem mapM_lid_lt : ∀ (ls : List (List Byte)) (lids : List Nat), ls.mapM getStringLid = some lids → ∀ n ∈ lids, n < 2 ^ 32 := by
  intro ls
  induction ls with
  | nil => intro lids h; simp at h; subst h; simp
  | cons l ls ih =>
    intro lids h
    rw [List.mapM_cons] at h
    cases hl : getStringLid l with
    | none => rw [hl] at h; simp at h
    | some k =>
      cases hr : ls.mapM getStringLid with
      | none => rw [hl, hr] at h; simp at h
      | some r =>
        rw [hl, hr] at h
        simp at h
        subst h
        intro n hn
        rcases List.mem_cons.1 hn with h' | h'
        · exact h' ▸ getStringLid_lt hl
        · exact ih r hr n h'

/-- The numbers of the lines that have one. -/
def usedIds (lids : List Nat) : List Nat := lids.filter (· ≠ 0)

theorem getHoles_map {file : List Byte} {lids : List Nat} (h : (holesLines file.length file).mapM getStringLid = some lids) :
    ∃ map ids', getLexemeMap (holesLines file.length file) ([], []) = some (map, repeats [] (usedIds lids)) ∧ MapOf map ids' ∧
      ∀ n, n ∈ ids' ↔ n ∈ usedIds lids := by
  obtain ⟨map, ids', h1, h2, h3⟩ := getLexemeMap_spec _ lids h [] [] [] [] MapOf.nil (by simp)
  refine ⟨map, ids', by simpa [usedIds] using h1, h2, ?_⟩
  intro n; rw [h3 n]; simp [usedIds]

theorem MapOf.congr {map ids ids' : List Nat} (h : MapOf map ids) (he : ∀ n, n ∈ ids ↔ n ∈ ids') : MapOf map ids' :=
  ⟨h.word, fun n => by rw [h.bits n, he n], h.last⟩

/-- What the tool prints when the smallest number is divisible by 32 and the largest is not 2^32 - 1: the repeated numbers,
the smallest and the largest number, the holes between them; and, when the number before the largest one is in use, one
more "hole" behind the largest number (unless the largest number is the last one of its 32). -/
theorem C81_report_partial (file : List Byte) (lids : List Nat) (h : (holesLines file.length file).mapM getStringLid = some lids)
    (least largest : Nat) (hl : IsLeast (usedIds lids) least) (hM : IsLargest (usedIds lids) largest)
    (hdiv : least % 32 = 0) (hlast : largest < 2 ^ 32 - 1) :
    ∃ holes, HolesBetween (usedIds lids) least largest holes ∧
      getHoles file = some (repeats [] (usedIds lids), .lexemes least largest (holes ++
        if least < largest ∧ largest - 1 ∈ usedIds lids ∧ largest % 32 ≠ 31 ∧ largest + 1 ≠ 2 ^ 32 - 1
        then [(largest + 1, largest + 1)] else [])) := by
  obtain ⟨map, ids', h1, h2, h3⟩ := getHoles_map h
  have hm := h2.congr h3
  have hlt : ∀ n ∈ usedIds lids, n < 2 ^ 32 := fun n hn => mapM_lid_lt _ _ h n (List.mem_of_mem_filter hn)
  have e1 := getMin_ids hm hlt hl
  rw [if_pos hdiv] at e1
  have e2 := getMax_ids hm hlt hM
  have hno : noLexId = 2 ^ 32 - 1 := by decide
  obtain ⟨hs, p1, p2⟩ := printHoles_spec hm hM (by omega) largest least (by omega) (fun _ => hl.1)
  refine ⟨hs, p2, ?_⟩
  have := hM.2 _ hl.1
  rw [getHoles, h1]
  simp only [printLexMap, e1, e2]
  rw [if_neg (by omega), p1]
  simp only [extraHole, hno]
  rfl

/-- When the smallest number is not divisible by 32, or the largest one is 2^32 - 1, the tool says that there are no
lexemes. -/
theorem C81_silent (file : List Byte) (lids : List Nat) (h : (holesLines file.length file).mapM getStringLid = some lids)
    (least largest : Nat) (hl : IsLeast (usedIds lids) least) (hM : IsLargest (usedIds lids) largest)
    (hbad : least % 32 ≠ 0 ∨ largest = 2 ^ 32 - 1) :
    getHoles file = some (repeats [] (usedIds lids), .noLexemes) := by
  obtain ⟨map, ids', h1, h2, h3⟩ := getHoles_map h
  have hm := h2.congr h3
  have hlt : ∀ n ∈ usedIds lids, n < 2 ^ 32 := fun n hn => mapM_lid_lt _ _ h n (List.mem_of_mem_filter hn)
  have e1 := getMin_ids hm hlt hl
  have e2 := getMax_ids hm hlt hM
  have hno : noLexId = 2 ^ 32 - 1 := by decide
  rw [getHoles, h1]
  simp only [printLexMap]
  rw [if_pos]
  · rfl
  · rcases hbad with hb | hb
    · left; rw [e1, if_neg hb]
    · right; rw [e2, hno, hb]

/-- A file without numbers: no lexemes. -/
theorem C81_none (file : List Byte) (lids : List Nat) (h : (holesLines file.length file).mapM getStringLid = some lids)
    (h0 : usedIds lids = []) : getHoles file = some ([], .noLexemes) := by
  obtain ⟨map, ids', h1, h2, h3⟩ := getHoles_map h
  have hm := h2.congr h3
  rw [h0] at hm h1
  rw [getHoles, h1]
  simp only [printLexMap, getMin_nil hm, true_or, if_true]
  rfl

/-- The specification of the holes leaves no choice. -/
theorem C81_determined (ids : List Nat) (least largest : Nat) : ∀ hs hs' : List (Nat × Nat),
    HolesBetween ids least largest hs → HolesBetween ids least largest hs' → hs = hs' := by
  intro hs
  induction hs generalizing least with
  | nil =>
    intro hs' h h'
    cases hs' with
    | nil => rfl
    | cons b bs =>
      exfalso
      obtain ⟨i1, i2, i3⟩ := h'.inside b (by simp)
      have := (h'.exact b.1 i1 (by omega)).2 ⟨b, by simp, by omega, by omega⟩
      obtain ⟨x, hx, _⟩ := (h.exact b.1 i1 (by omega)).1 this
      simp at hx
  | cons a as ih =>
    intro hs' h h'
    cases hs' with
    | nil =>
      exfalso
      obtain ⟨i1, i2, i3⟩ := h.inside a (by simp)
      have := (h.exact a.1 i1 (by omega)).2 ⟨a, by simp, by omega, by omega⟩
      obtain ⟨x, hx, _⟩ := (h'.exact a.1 i1 (by omega)).1 this
      simp at hx
    | cons b bs =>
      have first : ∀ (a b : Nat × Nat) (as bs : List (Nat × Nat)), HolesBetween ids least largest (a :: as) →
          HolesBetween ids least largest (b :: bs) → b.1 ≤ a.1 ∧ (a.1 = b.1 → a.2 ≤ b.2) := by
        intro a b as bs h h'
        obtain ⟨i1, i2, i3⟩ := h.inside a (by simp)
        have hge : ∀ x ∈ b :: bs, b.1 ≤ x.1 := by
          intro x hx
          rcases List.mem_cons.1 hx with rfl | hx
          · exact Nat.le_refl _
          · obtain ⟨n, _, n1, n2⟩ := (List.pairwise_cons.1 h'.apart).1 x hx
            have := h'.inside b (by simp)
            omega
        have hfree : ∀ n, a.1 ≤ n → n ≤ a.2 → n ∉ ids := fun n n1 n2 =>
          (h.exact n (by omega) (by omega)).2 ⟨a, by simp, n1, n2⟩
        constructor
        · obtain ⟨x, hx, x1, x2⟩ := (h'.exact a.1 i1 (by omega)).1 (hfree _ (by omega) i2)
          have := hge x hx
          omega
        · intro he
          obtain ⟨x, hx, x1, x2⟩ := (h'.exact a.2 (by omega) i3).1 (hfree _ i2 (by omega))
          rcases List.mem_cons.1 hx with rfl | hx
          · exact x2
          · exfalso
            obtain ⟨n, hn, n1, n2⟩ := (List.pairwise_cons.1 h'.apart).1 x hx
            have := h'.inside b (by simp)
            exact hfree n (by omega) (by omega) hn
      obtain ⟨f1, f2⟩ := first a b as bs h h'
      obtain ⟨g1, g2⟩ := first b a bs as h' h
      have e1 : a.1 = b.1 := by omega
      have e2 : a.2 = b.2 := by have := f2 e1; have := g2 e1.symm; omega
      have e : a = b := Prod.ext e1 e2
      subst e
      have tail : ∀ xs, HolesBetween ids least largest (a :: xs) → HolesBetween ids a.2 largest xs := by
        intro xs hx
        have ia := hx.inside a (by simp)
        refine ⟨?_, (List.pairwise_cons.1 hx.apart).2, ?_⟩
        · intro x hxm
          obtain ⟨n, _, n1, n2⟩ := (List.pairwise_cons.1 hx.apart).1 x hxm
          have := hx.inside x (List.mem_cons_of_mem _ hxm)
          exact ⟨by omega, this.2⟩
        · intro n n1 n2
          rw [hx.exact n (by omega) n2]
          constructor
          · rintro ⟨x, hxm, x1, x2⟩
            rcases List.mem_cons.1 hxm with rfl | hxm
            · omega
            · exact ⟨x, hxm, x1, x2⟩
          · rintro ⟨x, hxm, q⟩; exact ⟨x, List.mem_cons_of_mem _ hxm, q⟩
      rw [ih a.2 bs (tail as h) (tail bs h')]

end Libmorph
