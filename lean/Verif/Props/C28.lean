import Verif.Lemmas.RusLevel
import Verif.Lemmas.Mix
import Verif.Lemmas.RusTables
/-
C28: stem alternation is resolved exactly.  C29: lookup in a Russian ending table is exact.
-/
namespace Libmorph
open Spec

/-- **C28.**  For the table made from any list of (alternant, level) and any rest `w` of a word: the
scanner calls back exactly for the listed alternants that begin `w`, in increasing order, each with
what follows it in the word and with exactly the powers of the levels it serves. -/
theorem C28_alternants_exact (hist : List (List Byte × Nat)) (hok : MixOk hist) (w : List Byte) :
    ∃ alts : List (List Byte × Nat),
      (∀ {σ ρ : Type} (call : Nat → Frag → σ → Option (Option ρ × σ)) (junk tl : List Byte) (s : σ),
        mixScan call (mixSer (mixOf hist) ++ tl) ⟨w ++ junk, w.length⟩ s
          = runHits (fun powers rest => call powers ⟨rest ++ junk, rest.length⟩)
              (alts.map fun a => (a.2, w.drop a.1.length)) s)
      ∧ alts.Pairwise (fun a b => bytesLt a.1 b.1 = true)
      ∧ (∀ a, a ∈ alts.map Prod.fst ↔ (∃ k, (a, k) ∈ hist) ∧ a <+: w)
      ∧ (∀ a ∈ alts, ∀ k, a.2.testBit k = true ↔ Serves hist a.1 k) := by
  obtain ⟨h1, h2, h3, h4, h5, h6⟩ := mixOf_inv hist hok.levels
  have hshort : ∀ m ∈ mixOf hist, m.str.length < 16 := by
    intro m hm
    obtain ⟨k, hk⟩ := h3 m hm
    exact hok.short _ hk
  have hhead : ∀ m ∈ mixOf hist, mixHead (spareBits (mixOf hist)) m &&& 0x0f = m.str.length :=
    fun m hm => (mixHead_spec (mixOf hist) m (hshort m hm) (h2 m hm)).2.1
  refine ⟨((mixOf hist).filter fun m => m.str.isPrefixOf w).map fun m => (m.str, mixHead (spareBits (mixOf hist)) m >>> 4), ?_, ?_, ?_, ?_⟩
  · intro σ ρ call junk tl s
    simp only [mixScan, mixSer, List.cons_append, getbyte, bind, Option.bind]
    rw [Nat.mod_eq_of_lt (by have := hok.count; omega), mixLoop_ser call w junk _ _ hhead h1 tl s]
    simp [List.map_map, Function.comp_def]
  · rw [List.pairwise_map]
    exact List.Pairwise.filter _ h1
  · intro a
    simp only [List.mem_map, List.mem_filter, List.isPrefixOf_iff_prefix]
    constructor
    · rintro ⟨x, ⟨m, ⟨hm, hp⟩, rfl⟩, rfl⟩
      exact ⟨h3 m hm, hp⟩
    · rintro ⟨⟨k, hk⟩, hp⟩
      obtain ⟨m, hm, rfl⟩ := h4 _ hk
      exact ⟨_, ⟨m, ⟨hm, hp⟩, rfl⟩, rfl⟩
  · intro a ha k
    obtain ⟨m, hm, rfl⟩ := List.mem_map.1 ha
    have hm := (List.mem_filter.1 hm).1
    simp only
    rw [(mixHead_spec (mixOf hist) m (hshort m hm) (h2 m hm)).2.2 k, h5 m hm k, h5 m hm 0, Serves]
    have : (∀ m' ∈ mixOf hist, m'.flags.testBit k = false) ↔ ∀ s', (s', k) ∉ hist := by
      constructor
      · intro h s' hs'
        obtain ⟨m', hm', e⟩ := h4 _ hs'
        have := h m' hm'
        rw [Bool.eq_false_iff] at this
        apply this
        rw [h5 m' hm' k, e]
        exact hs'
      · intro h m' hm'
        rw [Bool.eq_false_iff]
        intro hb
        exact h _ ((h5 m' hm' k).1 hb)
    rw [this]

/-- The level a form needs is 1, 2 or 3, whatever the word and the description. -/
theorem C28_levels (wdinfo gr fl : Nat) : 1 ≤ swapLevel wdinfo gr fl ∧ swapLevel wdinfo gr fl ≤ 3 := by
  unfold swapLevel
  split <;> (try unfold verbMixPower verbMixPower1 verbMixPower2 verbMixPower3)
    <;> (try unfold mascMixedPower) <;> (try unfold femnMixedPower)
    <;> (try unfold mascNotAnimPower) <;> (try unfold mascAnimPower)
    <;> (try unfold femnNotAnimPower) <;> (try unfold femnAnimPower) <;> (try unfold adjectivPower)
    <;> (try simp only) <;> repeat' split
  all_goals exact ⟨by decide, by decide⟩

/-- **C28**, the filter: with an alternant's powers a description passes exactly when the alternant
serves the level the description needs (and, in plural-only words, when it is plural). -/
theorem C28_filter (hist : List (List Byte × Nat)) (a : List Byte) (powers wdinfo : Nat) (g : FlexInfo)
    (hp : ∀ k, powers.testBit k = true ↔ Serves hist a k) :
    altFilter wdinfo powers g = true ↔
      Serves hist a (Spec.altLevel wdinfo g.gramm g.flags - 1) ∧ (wdinfo &&& wfMultiple ≠ 0 → g.gramm &&& gfMultiple ≠ 0) := by
  rw [← swapLevel_eq]
  have h1 : (powers &&& (1 <<< (swapLevel wdinfo g.gramm g.flags - 1)) ≠ 0)
      ↔ powers.testBit (swapLevel wdinfo g.gramm g.flags - 1) = true := by
    rw [Nat.shiftLeft_eq, Nat.one_mul, and_two_pow_if]
    have := Nat.two_pow_pos (swapLevel wdinfo g.gramm g.flags - 1)
    cases powers.testBit (swapLevel wdinfo g.gramm g.flags - 1) <;> simp
  rw [← hp, ← h1]
  simp only [altFilter, flexFilter, Bool.and_eq_true, decide_eq_true_eq]
  apply and_congr_right'
  split
  · rename_i h; simp [h]
  · rename_i h; simp only [true_iff]; intro h'; exact absurd h' h

/-- A masculine word like "сон" (stem "с", alternants "он" and "н"): levels 0 and 1; level 2 falls to "он". -/
example : MixOk [([238, 237], 0), ([237], 1)]
    ∧ mixSer (mixOf [([238, 237], 0), ([237], 1)]) = [2, 0x21, 237, 0x52, 238, 237]
    ∧ Serves [([238, 237], 0), ([237], 1)] [238, 237] 2 := by
  refine ⟨⟨by decide, by decide, by decide⟩, by decide +kernel, Or.inr ⟨by decide, by decide, by simp⟩⟩

/-! ### C29 -/

/-- **C29.**  For every compact table that can be expanded within the limits of the format: looking
`w` up in the expanded image reports exactly the descriptions the table gives the ending `w` that pass
the filter, each once. -/
theorem C29_lookup_exact (ftab A : List Byte) (tfoffs : Nat) (hok : FlexOk ftab A tfoffs) (img : List Byte)
    (hp : plainTable ftab tfoffs = some img) (hsz : img.length < 2 ^ 32)
    (filter : FlexInfo → Bool) (w : List Byte) (hw : w.length < 64) :
    ∃ gs : List FlexInfo, (∀ junk tl, scanFlex filter (img ++ tl) ⟨w ++ junk, w.length⟩ = some gs) ∧ gs.Nodup ∧
      ∀ g : FlexInfo, g ∈ gs ↔ Ending ftab tfoffs w g.gramm g.flags ∧ filter g = true := by
  simp only [plainTable, Option.map_eq_some_iff] at hp
  obtain ⟨t, ht, rfl⟩ := hp
  refine ⟨_, fun junk tl => scanFlex_tree hok ht hsz filter w junk tl hw, ?_, ?_⟩
  · cases hf : t.find w with
    | none => simp
    | some x => exact List.Nodup.filter _ ((createTree_find hok.bytes ht).2.1 w x hf).1
  · intro g
    rw [List.mem_filter]
    apply and_congr_left'
    cases hf : t.find w with
    | none =>
      simp only [Option.getD_none, List.not_mem_nil, false_iff]
      exact ((createTree_find hok.bytes ht).2.2.1 w).1 hf _ _
    | some x =>
      simp only [Option.getD_some]
      exact ((createTree_find hok.bytes ht).2.1 w x hf).2.2 g

/-- A table of three elements, "а", "и" that may be continued by the table at 20 (reference 10) and "о"
that must be continued by it; that table has "ми" and "й". -/
def sampleFlex : List Byte :=
  [3, 3, 0, 0, 1, 224, 0x43, 0, 8, 1, 232, 10, 0, 0x83, 0, 0x10, 1, 238, 10, 0] ++
  [2, 1, 0, 0x20, 2, 236, 232, 3, 0, 0x40, 1, 233]

/-- The table satisfies the hypotheses, has six endings, and "ими" is found with the united description. -/
example : FlexOk sampleFlex [224, 232, 233, 236, 238] 0
    ∧ Ending sampleFlex 0 [232, 236, 232] 0x2800 1
    ∧ ∃ img, plainTable sampleFlex 0 = some img ∧ img.length < 2 ^ 32
      ∧ scanFlex (fun _ => true) img ⟨[232, 236, 232], 3⟩ = some [⟨0x2800, 1⟩]
      ∧ scanFlex (fun g => decide (g.flags = 3)) img ⟨[232, 236, 232], 3⟩ = some []
      ∧ scanFlex (fun _ => true) img ⟨[238], 1⟩ = some [] := by
  refine ⟨flexOk_of (d := 3) (l := [([224], ⟨0, 3⟩), ([232], ⟨2048, 67⟩), ([232, 236, 232], ⟨10240, 1⟩),
      ([232, 233], ⟨18432, 3⟩), ([238, 236, 232], ⟨12288, 1⟩), ([238, 233], ⟨20480, 3⟩)])
      (by decide +kernel) (by decide) (by decide) (by decide) (by decide) (by decide), ?_, ?_⟩
  · exact Ending.next (tfoffs := 0) (i := ⟨0x43, 0x800, [232], 10⟩) (w := [236, 232]) (g := 0x2000) (fl := 1)
      ⟨_, rfl, by decide⟩ (by decide)
      (Ending.here (tfoffs := 10) (i := ⟨1, 0x2000, [236, 232], 0⟩) ⟨_, rfl, by decide⟩ (by decide))
  · exact ⟨[3, 238, 18, 2, 236, 8, 1, 232, 5, 128, 1, 0, 48, 1, 233, 5, 128, 1, 0, 80, 3, 232, 22, 130, 236, 8, 1, 232, 5, 128,
      1, 0, 40, 1, 233, 5, 128, 1, 0, 72, 3, 1, 0, 8, 67, 224, 5, 128, 1, 0, 0, 3],
      by decide +kernel, by decide, by decide +kernel, by decide +kernel, by decide +kernel⟩

end Libmorph
