import Verif.Lemmas.Json
import Verif.Spec.Tools
import Verif.Props.C64
/-
What the tools print is a JSON text of the records.
-/
namespace Libmorph
open Json

theorem litLemma : asciiBytes "\n  { \"lemma\": \"" = [10, 32, 32, 123, 32, 34, 108, 101, 109, 109, 97, 34, 58, 32, 34] := by decide
theorem litLexid : asciiBytes "\",\t\"lexid\": " = [34, 44, 9, 34, 108, 101, 120, 105, 100, 34, 58, 32] := by decide
theorem litPsp : asciiBytes ", \"psp\": " = [44, 32, 34, 112, 115, 112, 34, 58, 32] := by decide
theorem litForms : asciiBytes ", \"forms\": [" = [44, 32, 34, 102, 111, 114, 109, 115, 34, 58, 32, 91] := by decide
theorem litEnd : asciiBytes "] }" = [93, 32, 125] := by decide
theorem litScore : asciiBytes "\",\t\"score\": " = [34, 44, 9, 34, 115, 99, 111, 114, 101, 34, 58, 32] := by decide
theorem litClass : asciiBytes ", \"class\": " = [44, 32, 34, 99, 108, 97, 115, 115, 34, 58, 32] := by decide
theorem litComma : asciiBytes "," = [44] := by decide
theorem litCommaSp : asciiBytes ", " = [44, 32] := by decide
theorem litOpen : asciiBytes "[" = [91] := by decide
theorem litClose : asciiBytes "\n]" = [10, 93] := by decide
theorem litEmpty : asciiBytes "[]" = [91, 93] := by decide
theorem keyLemma : asciiBytes "lemma" = [108, 101, 109, 109, 97] := by decide
theorem keyLexid : asciiBytes "lexid" = [108, 101, 120, 105, 100] := by decide
theorem keyPsp : asciiBytes "psp" = [112, 115, 112] := by decide
theorem keyForms : asciiBytes "forms" = [102, 111, 114, 109, 115] := by decide
theorem keyScore : asciiBytes "score" = [115, 99, 111, 114, 101] := by decide
theorem keyClass : asciiBytes "class" = [99, 108, 97, 115, 115] := by decide

/-- A record as it lies in the buffers. -/
structure RecordSays (b : List Byte) (x : List Gram) (conv : List Byte → List Byte) (r : Lemm) (g : LemmGroup) : Prop where
  id : r.nlexid = g.1.id
  text : ∃ t, b.drop r.plemma = conv g.1.text ++ 0 :: t
  grams : r.ngrams = g.counted.length ∧ r.pgrams + r.ngrams ≤ x.length ∧ (x.drop r.pgrams).take r.ngrams = g.counted

/-- The text of a list of numbers. -/
theorem reads_numbers (ns : List Nat) : Reads Bool.false (91 :: printItems [] [44, 32] (ns.map decimal) ++ [] ++ [93]) (.arr (ns.map fun (n : Nat) => .int n)) := by
  refine reads_items (ws := [32]) (by decide) ?_ (by simp)
  induction ns with
  | nil => exact .nil
  | cons n ns ih => exact .cons (reads_decimal n) ih

theorem forall₂_four {α β : Type} {R : α → β → Prop} {a b c d : α} {a' b' c' d' : β} (h1 : R a a') (h2 : R b b') (h3 : R c c') (h4 : R d d') :
    List.Forall₂ R [a, b, c, d] [a', b', c', d'] := .cons h1 (.cons h2 (.cons h3 (.cons h4 .nil)))

theorem printLemma_says {b : List Byte} {x : List Gram} {conv : List Byte → List Byte} {r : Lemm} {g : LemmGroup} (h : RecordSays b x conv r g)
    (hp : Plain (conv g.1.text)) (hg : g.1.grs ≠ []) : ∃ t, printLemma b x r = some t ∧ Reads Bool.false t (lemmaJson conv g) := by
  obtain ⟨h1, ⟨t, h2⟩, h3, h4, h5⟩ := h
  have hz : 0 ∉ conv g.1.text := fun h0 => by have := (hp 0 h0).1; omega
  have hne : g.counted ≠ [] := by simpa [LemmGroup.counted] using hg
  obtain ⟨d, ds, hd⟩ := List.exists_cons_of_ne_nil hne
  have hx : x[r.pgrams]? = some d := by
    have : ((x.drop r.pgrams).take r.ngrams)[0]? = some d := by rw [h5, hd]; rfl
    have h0 : 0 < r.ngrams := by rw [h3, hd]; simp
    rw [List.getElem?_take_of_lt h0, List.getElem?_drop] at this
    simpa using this
  simp only [printLemma, h2, cstring_zero hz, hx, bind, Option.bind_some, if_pos h4, h5, h1]
  refine ⟨_, rfl, ?_⟩
  have hobj := reads_obj (w := [32]) (forall₂_four
    ((reads_member (k := asciiBytes "lemma") (by unfold Plain; decide) ((reads_str hp).ws (w := [32]) (by decide))).ws (w := [32]) (by decide))
    ((reads_member (k := asciiBytes "lexid") (by unfold Plain; decide) ((reads_padded 6 g.1.id).ws (w := [32]) (by decide))).ws (w := [9]) (by decide))
    ((reads_member (k := asciiBytes "psp") (by unfold Plain; decide) ((reads_padded 2 (d.wdInfo &&& 0x3f)).ws (w := [32]) (by decide))).ws (w := [32]) (by decide))
    ((reads_member (k := asciiBytes "forms") (by unfold Plain; decide) ((reads_numbers (g.counted.map Gram.idForm)).ws (w := [32]) (by decide))).ws (w := [32]) (by decide)))
    (by decide)
  have hall := hobj.ws (w := [10, 32, 32]) (by decide)
  have hpos : posOf g = d.wdInfo &&& 0x3f := by
    rw [posOf, hd, List.headD_cons, show (0x3f : Nat) = 2 ^ 6 - 1 by rfl, Nat.and_two_pow_sub_one_eq_mod]
  have hv : lemmaJson conv g = .obj [(asciiBytes "lemma", .str (conv g.1.text)), (asciiBytes "lexid", .int g.1.id),
      (asciiBytes "psp", .int ((d.wdInfo &&& 0x3f : Nat) : Int)), (asciiBytes "forms", .arr ((g.counted.map Gram.idForm).map fun (n : Nat) => .int n))] := by
    rw [lemmaJson, hpos, List.map_map]; rfl
  rw [hv]
  refine cast ?_ hall
  congr 1
  simp only [commas, litLemma, litLexid, litPsp, litForms, litEnd, litCommaSp, keyLemma, keyLexid, keyPsp, keyForms, List.map_map, Function.comp_def]
  simp

theorem reads_mapM {α β : Type} {f : α → Option (List Byte)} {k : β → JVal} {R : α → β → Prop} (hR : ∀ a b, R a b → ∃ t, f a = some t ∧ Reads Bool.false t (k b)) :
    ∀ {l : List α} {m : List β}, List.Forall₂ R l m → ∃ ts, l.mapM f = some ts ∧ List.Forall₂ (Reads Bool.false) ts (m.map k) := by
  intro l m h
  induction h with
  | nil => exact ⟨[], rfl, .nil⟩
  | cons h _ ih =>
    obtain ⟨t, h1, h2⟩ := hR _ _ h
    obtain ⟨ts, h3, h4⟩ := ih
    exact ⟨t :: ts, by simp [List.mapM_cons, h1, h3], .cons h2 h4⟩

/-- The tool prints the records. -/
theorem lemmatizeTool_prints {call : Option (List Lemm) → Option (List Byte) → Option (List Gram) → Option (Int × LemmState)} {lx : List Lemm}
    {st : List Byte} {gr : List Gram} {s : LemmState} {l : List Lemm} {b : List Byte} {x : List Gram} {conv : List Byte → List Byte} {gs : List LemmGroup}
    (hc : call (some lx) (some st) (some gr) = some ((gs.length : Int), s)) (hl : s.lemms = some l) (hb : s.forms.buf = some b) (hx : s.grams = some x)
    (hlen : gs.length ≤ l.length) (h : List.Forall₂ (RecordSays b x conv) (l.take gs.length) gs) (hp : ∀ g ∈ gs, Plain (conv g.1.text))
    (hg : ∀ g ∈ gs, g.1.grs ≠ []) :
    ∃ out, lemmatizeTool call lx st gr = some (out, 0) ∧ read out = some (.arr (gs.map (lemmaJson conv))) := by
  by_cases h0 : gs = []
  · subst h0
    refine ⟨asciiBytes "[]", ?_, read_of ?_⟩
    · simp [lemmatizeTool, hc]
    · rw [litEmpty]; exact reads_arr (ts := []) (w := []) .nil (by simp)
  · have hn : ((gs.length : Int)) ≠ 0 := by
      have := List.length_pos_iff.2 h0
      omega
    obtain ⟨ts, h1, h2⟩ := reads_mapM (f := printLemma b x) (k := lemmaJson conv)
      (fun r g (hg : _ ∧ (Plain (conv g.1.text) ∧ g.1.grs ≠ [])) => printLemma_says hg.1 hg.2.1 hg.2.2)
      (forall₂_and_right h fun g hgg => ⟨hp g hgg, hg g hgg⟩)
    refine ⟨asciiBytes "[" ++ printItems [] (asciiBytes ",") ts ++ asciiBytes "\n]", ?_, read_of ?_⟩
    · simp only [lemmatizeTool, hc, bind, Option.bind_some, if_neg hn, hl, hb, hx, Option.getD_some, Int.toNat_natCast, if_pos hlen, h1]
      rfl
    · rw [litOpen, litComma, litClose]
      have := reads_items (ws := []) (by simp) h2 (w := [10]) (by decide)
      simpa using this

/-- With a negative answer the tool prints an empty array, on two lines. -/
theorem lemmatizeTool_error {call : Option (List Lemm) → Option (List Byte) → Option (List Gram) → Option (Int × LemmState)} {lx : List Lemm}
    {st : List Byte} {gr : List Gram} {s : LemmState} {r : Int}
    (hc : call (some lx) (some st) (some gr) = some (r, s)) (hr : r < 0) : lemmatizeTool call lx st gr = some (asciiBytes "[\n]", 0) := by
  simp only [lemmatizeTool, hc, bind, Option.bind_some, if_neg (by omega : r ≠ 0), show r.toNat = 0 by omega]
  simp [printItems]
  decide

end Libmorph
