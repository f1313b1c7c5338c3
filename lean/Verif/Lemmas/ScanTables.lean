import Verif.Lemmas.EngState
import Verif.Model.EngRun
namespace Libmorph

/-! ### Comparing an ending -/

theorem memcmp_spec (n : Nat) : ∀ (a b : List Byte), n ≤ a.length → n ≤ b.length →
    ∃ o, memcmp a b n = some o ∧ (o = .eq ↔ a.take n = b.take n) ∧
      (o = .gt ↔ bytesLt (b.take n) (a.take n) = true) ∧ (o = .lt ↔ bytesLt (a.take n) (b.take n) = true) := by
  induction n with
  | zero => intro a b _ _; exact ⟨.eq, by simp [memcmp], by simp [bytesLt]⟩
  | succ n ih =>
    intro a b ha hb
    cases a with
    | nil => simp at ha
    | cons x a =>
      cases b with
      | nil => simp at hb
      | cons y b =>
        simp only [memcmp, List.take_succ_cons, bytesLt]
        by_cases h1 : x < y
        · refine ⟨.lt, by simp [h1], ?_, ?_, ?_⟩
          · simp; intro h; omega
          · simp [h1]; omega
          · simp [h1]
        · by_cases h2 : y < x
          · refine ⟨.gt, by simp [h1, h2], ?_, ?_, ?_⟩
            · simp; intro h; omega
            · simp [h2]
            · simp [h1, h2]
          · obtain ⟨o, e1, e2, e3, e4⟩ := ih a b (by simpa using ha) (by simpa using hb)
            have : x = y := by omega
            subst this
            exact ⟨o, by simp [h1, e1], by simpa using e2, by simpa using e3, by simpa using e4⟩

theorem bytesLt_take (n : Nat) : ∀ (a b : List Byte), n ≤ a.length → n ≤ b.length →
    bytesLt (a.take n) (b.take n) = true → bytesLt a b = true := by
  induction n with
  | zero => intro a b _ _ h; simp [bytesLt] at h
  | succ n ih =>
    intro a b ha hb h
    cases a with
    | nil => simp at ha
    | cons x a =>
      cases b with
      | nil => simp at hb
      | cons y b =>
        simp only [List.take_succ_cons, bytesLt] at h ⊢
        by_cases h1 : x < y
        · simp [h1]
        · by_cases h2 : y < x
          · simp [h1, h2] at h
          · simp only [h1, h2, if_false] at h ⊢
            exact ih a b (by simpa using ha) (by simpa using hb) h

theorem Flex.lt_of_bytesLt {a b : Flex} (h : bytesLt a.szflex b.szflex = true) : a.lt b = true := by
  simp only [Flex.lt]
  rw [if_pos]
  · exact h
  · intro e; rw [e, bytesLt_irrefl] at h; simp at h

/-- What the table scan is meant to report. -/
def gramsFor (wdinfo : Nat) (items : List Flex) (flex : List Byte) : List Gram :=
  (items.filter fun x => x.szflex = flex).map fun x => ⟨wdinfo &&& 0x7f, x.idform, 0, 0⟩

theorem scanTabLoop_eq (wd : Nat) (flex after tl : List Byte) (items : List Flex)
    (hs : items.Pairwise Flex.le) (hlen : ∀ x ∈ items, x.szflex.length < 256) (acc : List Gram)
    (hroom : acc.length + (gramsFor wd items flex).length ≤ 0x40) :
    scanTabLoop wd ⟨flex ++ after, flex.length⟩ items.length ((items.map Flex.ser).flatten ++ tl) acc
      = some (acc ++ gramsFor wd items flex) := by
  induction items generalizing acc with
  | nil => simp [scanTabLoop, gramsFor]
  | cons x items ih =>
    rw [List.pairwise_cons] at hs
    have hx := hlen x (by simp)
    have ih := fun acc h => ih hs.2 (fun y hy => hlen y (by simp [hy])) acc h
    simp only [List.length_cons, List.map_cons, List.flatten_cons, scanTabLoop, Flex.ser, List.cons_append, getbyte,
      bind, Option.bind, pure]
    rw [Nat.mod_eq_of_lt hx]
    set n := min x.szflex.length flex.length with hn
    have htk : ∀ (r : List Byte), (x.szflex ++ r).take n = x.szflex.take n := by
      intro r; rw [List.take_append_of_le_length (by omega)]
    have hdrop : (x.szflex ++ (items.map Flex.ser).flatten ++ tl).drop x.szflex.length
        = (items.map Flex.ser).flatten ++ tl := by rw [List.append_assoc, List.drop_left]
    rw [hdrop]
    obtain ⟨o, e1, e2, e3, e4⟩ := memcmp_spec n (x.szflex ++ (items.map Flex.ser).flatten ++ tl) (flex ++ after)
      (by simp only [List.length_append]; omega) (by simp only [List.length_append]; omega)
    rw [List.append_assoc, htk, List.take_append_of_le_length (by omega)] at e2 e3 e4
    have hcmp : cmpFlex (x.szflex ++ (items.map Flex.ser).flatten ++ tl) (flex ++ after) n = some o := by
      simp only [cmpFlex]
      split
      · exact e1
      · have : n = 0 := by omega
        rw [this] at e2
        simp at e2
        rw [e2]
    rw [hcmp]
    simp only
    by_cases hgt : n > 0 ∧ o = .gt
    · rw [if_pos (by simp [hgt.1, hgt.2])]
      have hlt : bytesLt flex x.szflex = true :=
        bytesLt_take n _ _ (by omega) (by omega) (e3.1 hgt.2)
      have hnil : gramsFor wd (x :: items) flex = [] := by
        simp only [gramsFor, List.map_eq_nil_iff, List.filter_eq_nil_iff, decide_eq_true_eq]
        intro y hy he
        rcases List.mem_cons.1 hy with rfl | hy
        · rw [he, bytesLt_irrefl] at hlt; simp at hlt
        · have hle := hs.1 y hy
          simp only [Flex.le] at hle
          have : y.lt x = true := by
            refine Flex.lt_of_bytesLt ?_
            rw [he]; exact hlt
          rw [this] at hle; simp at hle
      rw [hnil]; simp
    · rw [if_neg (by simpa using hgt)]
      have heq : (x.szflex.length ≠ flex.length ∨ o = .lt) ↔ x.szflex ≠ flex := by
        constructor
        · rintro (h | h) he
          · exact h (by rw [he])
          · have := e4.1 h
            rw [he, bytesLt_irrefl] at this; simp at this
        · intro hne
          by_cases hl : x.szflex.length = flex.length
          · right
            have hnl : n = flex.length := by omega
            rw [hnl, List.take_of_length_le (by omega), List.take_of_length_le (by omega)] at e2
            cases o with
            | lt => rfl
            | eq => exact absurd (e2.1 rfl) hne
            | gt =>
              exfalso
              apply hgt
              refine ⟨?_, rfl⟩
              by_contra h0
              have : flex = [] := List.length_eq_zero_iff.1 (by omega)
              subst this
              have : x.szflex = [] := List.length_eq_zero_iff.1 (by simpa using hl)
              exact hne this
          · exact Or.inl hl
      by_cases hf : x.szflex = flex
      · rw [if_neg (by simpa using fun h => heq.1 h hf)]
        have hg : gramsFor wd (x :: items) flex = ⟨wd &&& 0x7f, x.idform, 0, 0⟩ :: gramsFor wd items flex := by
          simp [gramsFor, hf]
        rw [hg] at hroom ⊢
        simp only [List.length_cons] at hroom
        rw [if_neg (by omega)]
        rw [ih _ (by simp only [List.length_append, List.length_cons, List.length_nil]; omega)]
        simp
      · rw [if_pos (by simpa using heq.2 hf)]
        have hg : gramsFor wd (x :: items) flex = gramsFor wd items flex := by
          simp [gramsFor, hf]
        rw [hg] at hroom ⊢
        exact ih acc hroom

theorem scanTables_eq (wd : Nat) (flex after tl : List Byte) (t : FTable)
    (hs : t.items.Pairwise Flex.le) (hlen : ∀ x ∈ t.items, x.szflex.length < 256) (hn : t.items.length < 256)
    (hroom : (gramsFor wd t.items flex).length ≤ 0x40) :
    scanTables (t.ser ++ tl) wd ⟨flex ++ after, flex.length⟩ = some (gramsFor wd t.items flex) := by
  simp only [scanTables, FTable.ser, List.cons_append, getbyte, bind, Option.bind]
  rw [Nat.mod_eq_of_lt hn]
  have := scanTabLoop_eq wd flex after tl t.items hs hlen [] (by simpa using hroom)
  simpa using this

end Libmorph
