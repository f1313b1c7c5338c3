import Verif.Spec.Sample
import Verif.Lemmas.ScanMachine
/-! C05 and C06 — dictionary lookup finds exactly the stored stems that are prefixes of the word,
longest first; it never leaves the image and never overruns its stack. -/
namespace Libmorph
variable {α σ ρ : Type}

/-- The visits: `(v, r)` is listed exactly when `r` is the rest of the word after a stored prefix
with value `v`, and the rests get strictly longer (the prefixes strictly shorter) along the list. -/
theorem prefixHits_spec (find : List Byte → Option α) (w : List Byte) :
    (∀ v r, (v, r) ∈ prefixHits find w ↔ ∃ p, p ++ r = w ∧ find p = some v) ∧
    (prefixHits find w).Pairwise (fun a b => a.2.length < b.2.length) := by
  constructor
  · intro v r
    simp only [prefixHits, List.mem_filterMap, List.mem_reverse, List.mem_range, Option.map_eq_some_iff]
    constructor
    · rintro ⟨k, hk, x, hx, he⟩
      simp only [Prod.mk.injEq] at he
      obtain ⟨rfl, rfl⟩ := he
      exact ⟨w.take k, List.take_append_drop _ _, hx⟩
    · rintro ⟨p, rfl, hp⟩
      refine ⟨p.length, by simp only [List.length_append]; omega, v, ?_, ?_⟩
      · simpa using hp
      · simp
  · simp only [prefixHits, List.pairwise_filterMap]
    rw [List.pairwise_reverse]
    have : (List.range (w.length + 1)).Pairwise (fun a b => a < b) := List.pairwise_lt_range
    refine List.Pairwise.imp_of_mem ?_ this
    intro a b ha hb hab x hx y hy
    simp only [List.mem_range] at ha hb
    simp only [Option.map_eq_some_iff] at hx hy
    obtain ⟨_, _, rfl⟩ := hx
    obtain ⟨_, _, rfl⟩ := hy
    simp only [List.length_drop]; omega

theorem le_sum_of_mem' {n : Nat} {l : List Nat} (h : n ∈ l) : n ≤ l.sum := by
  induction l with
  | nil => simp at h
  | cons x l ih =>
    rcases List.mem_cons.1 h with rfl | h
    · simp
    · have := ih h; simp only [List.sum_cons]; omega

/-- C05, any tree.  `h` is the history of insertions of the compiler; values are written as `sv`
and read by the callback `act`, which does `actV` for a written value.  On the compiled image, with
any bytes after the image and after the word, the scan is the run of `actV` over the stored
prefixes of the word, longest first, each with the rest of the word, up to the first result. -/
theorem C05_lookup (c : Counter) (h : List (List Byte × (Option α → α)))
    (sv : α → List Byte) (vl : α → Nat) (A : List Byte)
    (act : List Byte → Frag → σ → Option (Option ρ × σ)) (actV : α → Frag → σ → Option (Option ρ × σ))
    (hA : A.length < c.top) (hb : ∀ x ∈ A, 0 < x ∧ x < 256) (hh : ∀ p ∈ h, ∀ b ∈ p.1, b ∈ A)
    (hv : ∀ k x, histFind h k = some x → (sv x).length = vl x ∧ ∀ tl f s, act (sv x ++ tl) f s = actV x f s)
    (hsize : ((runHist h).ser c sv vl).length < 2 ^ 32)
    (w after tl : List Byte) (hw : w.length < 64) (s : σ) :
    scanTree c act ((runHist h).ser c sv vl ++ tl) ⟨w ++ after, w.length⟩ s
      = runHits (fun v r => actV v ⟨r ++ after, r.length⟩) (prefixHits (histFind h) w) s := by
  have hd := (runHist_desc_find h).1
  let P : α → Prop := fun x => (sv x).length = vl x ∧ ∀ tl f s, act (sv x ++ tl) f s = actV x f s
  have hall : (runHist h).All P := Tree.all_of_find hd (fun k x hx => hv k x (by rw [← (runHist_desc_find h).2]; exact hx))
  have hch := (runHist_inv h (· ∈ A) (h.map (·.1.length)).sum (fun _ => True) hh
    (by
      intro p hp
      exact le_sum_of_mem' (List.mem_map.2 ⟨p, hp, rfl⟩))
    (by intros; trivial)).1
  have hz : ∀ f : Forest α, f.AllCh (· ∈ A) → f.AllCh (· ≠ 0) := by
    intro f
    induction f with
    | nil => intro _; trivial
    | cons ch v sub rest ihs ihr =>
      intro hf
      refine ⟨?_, ihs hf.2.1, ihr hf.2.2⟩
      have := (hb ch hf.1).1
      show ch ≠ 0
      omega
  have hgood : (runHist h).Good c vl := by
    refine Tree.good_of hd hch hA (fun x hx => (hb x hx).2) ?_
    rw [← Tree.ser_length c sv vl _ P (fun x hx => hx.1) hall]; exact hsize
  have := scanNode_ser c sv vl P act actV (fun x hx => hx.2) (fun x hx => hx.1) after w maxLevels (runHist h) tl s
    (by unfold sizeMod; omega) hw hall hgood (hz _ hch)
  rw [hits_eq_prefixHits] at this
  simp only [(runHist_desc_find h).2] at this
  exact this

/-- The recursion used in the model is the explicit stack machine of the code: it has an outcome
exactly when the machine, run for enough steps, has it. -/
theorem C05_machine (c : Counter) (act : List Byte → Frag → σ → Option (Option ρ × σ))
    (p : List Byte) (f : Frag) (s : σ) (r : Option ρ × σ) :
    scanTree c act p f s = some r ↔
      ∃ l, setlevel c p f = some l ∧ ∃ steps, scanMachine c act steps [l] s = some r :=
  scanTree_iff_machine c act p f s r

/-- C05 for the stem dictionary. -/
theorem C05_dictionary {A : List Byte} {l : List (List Byte × Entry)} (h : DictOk A l)
    (output : Nat → Nat → Frag → List Byte → σ → Option (Option ρ × σ))
    (w after tl : List Byte) (hw : w.length < 64) (s : σ) :
    scanTree .u8 (lookupList output) (stemImage (fileAll l) ++ tl) ⟨w ++ after, w.length⟩ s
      = runHits (fun es r => lookupEntries output ⟨r ++ after, r.length⟩ es)
          (prefixHits (fun k => if k ∈ l.map Prod.fst then some (filedUnder l k) else none) w) s :=
  scanDict h output w after tl hw s

theorem runHits_ne_none {β : Type} (act : α → β → σ → Option (Option ρ × σ))
    (hits : List (α × β)) (hact : ∀ p ∈ hits, ∀ s, act p.1 p.2 s ≠ none) (s : σ) :
    runHits act hits s ≠ none := by
  induction hits generalizing s with
  | nil => simp [runHits]
  | cons p hits ih =>
    obtain ⟨v, f⟩ := p
    simp only [runHits]
    have h1 := hact (v, f) (by simp) s
    cases hq : act v f s with
    | none => exact absurd hq h1
    | some z =>
      obtain ⟨q, s'⟩ := z
      cases q with
      | some q => simp
      | none => exact ih (fun p hp => hact p (by simp [hp])) s'

theorem lookupEntries_ne_none (output : Nat → Nat → Frag → List Byte → σ → Option (Option ρ × σ))
    (hout : ∀ id cls n post (r after : List Byte) s, n ≤ r.length →
      output id cls ⟨r ++ after, n⟩ post s ≠ none)
    (r after : List Byte) (es : List Entry) (s : σ) :
    lookupEntries output ⟨r ++ after, r.length⟩ es s ≠ none := by
  induction es generalizing s with
  | nil => simp [lookupEntries]
  | cons e es ih =>
    simp only [lookupEntries]
    cases hsc : suffixCheck ⟨r ++ after, r.length⟩ (if e.stpost.isEmpty = true then none else some e.stpost) with
    | none =>
      exfalso
      revert hsc
      cases e.stpost with
      | nil => simp [suffixCheck]
      | cons b bs =>
        simp only [List.isEmpty_cons, Bool.false_eq_true, if_false, suffixCheck]
        split
        · simp
        · rw [if_neg (by simp)]; split <;> simp
    | some cc =>
      cases cc with
      | none => exact ih s
      | some cc =>
        have hcc : cc ≤ r.length := by
          revert hsc
          cases e.stpost with
          | nil => simp only [suffixCheck, List.isEmpty_nil, if_true, Option.some.injEq]; omega
          | cons b bs =>
            simp only [List.isEmpty_cons, Bool.false_eq_true, if_false, suffixCheck]
            split
            · simp
            · rw [if_neg (by simp)]; split
              · simp
              · simp only [Option.some.injEq]; omega
        simp only
        cases hps : pruneStep ⟨r ++ after, r.length⟩ e.chrmin e.chrmax cc with
        | none =>
          exfalso
          revert hps
          simp only [pruneStep]
          split
          · cases r with
            | nil => simp only [List.length_nil] at hcc; omega
            | cons b r => simp only [List.cons_append, List.head?_cons]; split <;> [simp; (split <;> simp)]
          · simp
        | some pr =>
          cases pr with
          | stop => simp
          | skip => exact ih s
          | call n =>
            have hn : n ≤ r.length := by
              revert hps
              simp only [pruneStep]
              split
              · cases (r ++ after).head? with
                | none => simp
                | some b => 
                  simp only
                  split
                  · simp
                  · split
                    · simp
                    · simp only [Option.some.injEq, Prune.call.injEq]; omega
              · simp only [Option.some.injEq, Prune.call.injEq]; omega
            simp only
            have h1 := hout e.nlexid e.oclass n e.stpost r after s hn
            cases hq : output e.nlexid e.oclass ⟨r ++ after, n⟩ e.stpost s with
            | none => exact absurd hq h1
            | some z =>
              obtain ⟨q, s'⟩ := z
              cases q with
              | some q => simp
              | none => exact ih s'

/-- C06: on every compiled dictionary and every word shorter than 64 bytes (the interface refuses
words of 48 and more), with nothing at all after the image and nothing after the word, the scan has
a defined outcome (no byte is read outside the image or the word, the stack of 64 levels is not
overrun, the loop ends), provided the collector it calls has one on the endings it is given. -/
theorem C06_defined {A : List Byte} {l : List (List Byte × Entry)} (h : DictOk A l)
    (output : Nat → Nat → Frag → List Byte → σ → Option (Option ρ × σ))
    (hout : ∀ id cls n post (r after : List Byte) s, n ≤ r.length → output id cls ⟨r ++ after, n⟩ post s ≠ none)
    (w : List Byte) (hw : w.length < 64) (s : σ) :
    scanTree .u8 (lookupList output) (stemImage (fileAll l)) ⟨w, w.length⟩ s ≠ none ∧
    ∃ r l0 steps, setlevel .u8 (stemImage (fileAll l)) ⟨w, w.length⟩ = some l0 ∧
      scanMachine .u8 (lookupList output) steps [l0] s = some r := by
  have h1 : scanTree .u8 (lookupList output) (stemImage (fileAll l)) ⟨w, w.length⟩ s ≠ none := by
    have := scanDict h output w [] [] hw s
    simp only [List.append_nil] at this
    rw [this]
    apply runHits_ne_none
    intro p hp s
    have := lookupEntries_ne_none output hout p.2 [] p.1 s
    simpa using this
  refine ⟨h1, ?_⟩
  cases hr : scanTree .u8 (lookupList output) (stemImage (fileAll l)) ⟨w, w.length⟩ s with
  | none => exact absurd hr h1
  | some r =>
    obtain ⟨l0, hl, steps, hs⟩ := (scanTree_iff_machine _ _ _ _ _ _).1 hr
    exact ⟨r, l0, steps, hl, hs⟩

/-- Non-vacuity: the sample dictionary and the word "cats"; the scan visits "cat" before "ca". -/
example : (prefixHits (fun k => if k ∈ sample.map Prod.fst then some (filedUnder sample k) else none)
    [99, 97, 116, 115]).map (·.2) = [[115], [116, 115]] := by decide

example : scanTree .u8 (lookupList (ρ := Unit) (fun id _ f post s => some (none, s ++ [(id, f.len, post)])))
    (stemImage (fileAll sample)) ⟨[99, 97, 116, 115], 4⟩ []
      = some (none, [(5, 1, []), (300, 1, [])]) := by
  have := C05_dictionary sample_dictOk
    (ρ := Unit) (fun id _ f post s => some (none, s ++ [(id, f.len, post)])) [99, 97, 116, 115] [] [] (by decide) []
  simp only [List.append_nil, List.length_cons, List.length_nil] at this
  rw [this]; decide

end Libmorph
