import Verif.Lemmas.Letters
import Verif.Props.C32
import Verif.Props.C40
/-
C91: the game of five letters.
-/
namespace Libmorph
open Libmorph.Spec

/-! ### The questions -/

/-- What the conversions do with the characters of the game. -/
structure LetterCode (byte : Nat → Byte) (wide : Byte → Nat) : Prop where
  question : byte 63 = 63
  small : ∀ k < 32, byte (0x430 + k) = 224 + k
  back : ∀ k < 32, wide (224 + k) = 0x430 + k

/-- A noun, as the game sees it. -/
def RusArticle.Noun (a : RusArticle) : Prop := 7 ≤ a.pos ∧ a.pos ≤ 23

/-- A word of the dictionary that can come up in the game: five letters, a form of a noun whose number is 0 (nominative singular) or 255 (a word that
is not inflected). -/
def RusDict.GameWord (D : RusDict) (wide : Byte → Nat) (w : List Nat) : Prop :=
  ∃ a ∈ D.arts, a.Noun ∧ ∃ x e g, D.Reads a x e g ∧ (a.Inflected → mapWordInfo a.wdinfo g.gramm g.flags = 0 ∨ mapWordInfo a.wdinfo g.gramm g.flags = 255) ∧
    (a.stem ++ x ++ e).length = 5 ∧ w = (a.stem ++ x ++ e).map wide

/-- The limits of the game: nouns have no suffix, and their forms of five letters that can come up are written with the letters from а to я. -/
def RusDict.GameNouns (D : RusDict) : Prop :=
  ∀ a ∈ D.arts, a.Noun → a.post = [] ∧ ∀ x e g, D.Reads a x e g →
    (a.Inflected → mapWordInfo a.wdinfo g.gramm g.flags = 0 ∨ mapWordInfo a.wdinfo g.gramm g.flags = 255) →
    (a.stem ++ x ++ e).length = 5 → ∀ b ∈ a.stem ++ x ++ e, 224 ≤ b ∧ b < 256

theorem wildMatch_plain {p w : List Byte} (hp : 42 ∉ p) : WildMatch p w ↔ FitsTemplate p w := by
  induction p generalizing w with
  | nil =>
    constructor
    · intro h; cases h; exact ⟨rfl, fun i => .inr rfl⟩
    · rintro ⟨h, -⟩
      rw [List.length_eq_zero_iff.1 (show w.length = 0 from h.symm)]; exact .nil
  | cons c p ih =>
    have hc : c ≠ 42 := fun h => hp (by simp [h])
    have hp' : 42 ∉ p := fun h => hp (by simp [h])
    cases w with
    | nil =>
      constructor
      · intro h; cases h; exact absurd rfl hc
      · rintro ⟨h, -⟩; simp at h
    | cons d w =>
      have tail : FitsTemplate (c :: p) (d :: w) ↔ (c = 63 ∨ c = d) ∧ FitsTemplate p w := by
        constructor
        · rintro ⟨h1, h2⟩
          refine ⟨by simpa using h2 0, by simpa using h1, fun i => by simpa using h2 (i + 1)⟩
        · rintro ⟨h0, h1, h2⟩
          refine ⟨by simpa using h1, fun i => ?_⟩
          cases i with
          | zero => simpa using h0
          | succ i => simpa using h2 i
      rw [tail, ← ih hp']
      constructor
      · intro h
        cases h with
        | none => exact absurd rfl hc
        | more => exact absurd rfl hc
        | any h => exact ⟨.inl rfl, h⟩
        | same _ _ h => exact ⟨.inr rfl, h⟩
      · rintro ⟨h0, h⟩
        by_cases h63 : c = 63
        · subst h63; exact .any h
        · rcases h0 with h0 | rfl
          · exact absurd h0 h63
          · exact .same hc h63 h

theorem tmpl_byte {byte : Nat → Byte} {wide : Byte → Nat} (hc : LetterCode byte wide) {t : List Nat} (ht : FiveTemplate t) :
    (∀ b ∈ t.map byte, b = 63 ∨ 224 ≤ b ∧ b < 256) := by
  intro b hb
  obtain ⟨c, h1, rfl⟩ := List.mem_map.1 hb
  rcases ht.2 c h1 with rfl | h
  · exact .inl hc.question
  · obtain ⟨k, hk, rfl⟩ : ∃ k < 32, c = 0x430 + k := ⟨c - 0x430, by unfold SmallLetter at h; omega, by unfold SmallLetter at h; omega⟩
    rw [hc.small k hk]; right; omega

theorem fits_bytes {byte : Nat → Byte} {wide : Byte → Nat} (hc : LetterCode byte wide) {t : List Nat} (ht : FiveTemplate t) {s : List Byte}
    (hs : ∀ b ∈ s, 224 ≤ b ∧ b < 256) : FitsTemplate (t.map byte) s ↔ FitsTemplate t (s.map wide) := by
  have key : ∀ c ∈ t, ∀ b ∈ s, (byte c = 63 ∨ byte c = b) ↔ (c = 63 ∨ c = wide b) := by
    intro c h1 b h2
    have hb := hs b h2
    have e2 : wide b = b - 224 + 0x430 := by
      have := hc.back (b - 224) (by omega)
      rw [show 224 + (b - 224) = b by omega] at this
      omega
    rcases ht.2 c h1 with rfl | h
    · simp [hc.question]
    · have e1 : byte c = c - 0x430 + 224 := by
        have := hc.small (c - 0x430) (by unfold SmallLetter at h; omega)
        rw [show 0x430 + (c - 0x430) = c by unfold SmallLetter at h; omega] at this
        omega
      unfold SmallLetter at h
      omega
  unfold FitsTemplate
  rw [List.length_map, List.length_map]
  refine and_congr_right fun hl => forall_congr' fun i => ?_
  by_cases hi : i < t.length
  · have hi' : i < s.length := by omega
    have := key t[i] (List.getElem_mem hi) s[i] (List.getElem_mem hi')
    simpa [List.getElem?_map, List.getElem?_eq_getElem hi, List.getElem?_eq_getElem hi'] using this
  · simp [List.getElem?_eq_none (show s.length ≤ i by omega), List.getElem?_eq_none (show t.length ≤ i by omega)]

theorem rusTab_game : ∀ b < 256, b = 63 ∨ 224 ≤ b → rusTab.lower b = b := by decide +kernel

theorem wordsetForms_eq (exc inc : Nat) (hi : inc < 2 ^ 32) (ms : List StrMatchW)
    (h : ∀ m ∈ ms, (m.id = 0 ∨ m.id = 255) → ∀ c ∈ m.text, SmallLetter c) :
    ∃ l, wordsetForms exc inc ms = some l ∧ ∀ w, w ∈ l ↔ ∃ m ∈ ms, (m.id = 0 ∨ m.id = 255) ∧ m.text = w ∧
      (∀ c ∈ w, ¬ InSet exc c) ∧ ∀ c, InSet inc c → c ∈ w := by
  induction ms with
  | nil => exact ⟨[], rfl, by simp⟩
  | cons m ms ih =>
    obtain ⟨l, h1, h2⟩ := ih fun x hx => h x (by simp [hx])
    by_cases hm : m.id = 0 ∨ m.id = 0xff
    · obtain ⟨b, b1, b2⟩ := isExcluded_eq m.text exc (h m (by simp) hm)
      obtain ⟨d, d1, d2⟩ := isIncluded_eq m.text inc (h m (by simp) hm) hi
      refine ⟨if (!b && d) = true then m.text :: l else l, ?_, fun w => ?_⟩
      · simp only [wordsetForms, if_pos hm, b1, bind, Option.bind_some, h1]
        cases b
        · simp [d1]
        · simp
      · have hsel : (!b && d) = true ↔ (∀ c ∈ m.text, ¬ InSet exc c) ∧ ∀ c, InSet inc c → c ∈ m.text := by
          rw [Bool.and_eq_true, d2, Bool.not_eq_true', ← Bool.not_eq_true, b2]
          simp only [not_exists, not_and]
        split
        · rename_i hc
          rw [List.mem_cons, h2]
          constructor
          · rintro (rfl | ⟨x, hx, k⟩)
            · exact ⟨m, by simp, hm, rfl, hsel.1 hc⟩
            · exact ⟨x, by simp [hx], k⟩
          · rintro ⟨x, hx, k1, rfl, k⟩
            rcases List.mem_cons.1 hx with rfl | hx
            · exact .inl rfl
            · exact .inr ⟨x, hx, k1, rfl, k⟩
        · rename_i hc
          rw [h2]
          constructor
          · rintro ⟨x, hx, k⟩; exact ⟨x, by simp [hx], k⟩
          · rintro ⟨x, hx, k1, rfl, k⟩
            rcases List.mem_cons.1 hx with rfl | hx
            · exact absurd (hsel.2 k) hc
            · exact ⟨x, hx, k1, rfl, k⟩
    · refine ⟨l, by simp [wordsetForms, if_neg hm, h1], fun w => (h2 w).trans ?_⟩
      constructor
      · rintro ⟨x, hx, k⟩; exact ⟨x, by simp [hx], k⟩
      · rintro ⟨x, hx, k1, k⟩
        rcases List.mem_cons.1 hx with rfl | hx
        · exact absurd k1 hm
        · exact ⟨x, hx, k1, k⟩

theorem mapM_flatten {α β : Type} {f : α → Option (List β)} {P : α → β → Prop} : ∀ {l : List α},
    (∀ x ∈ l, ∃ r, f x = some r ∧ ∀ w, w ∈ r ↔ P x w) → ∃ rs, l.mapM f = some rs ∧ ∀ w, w ∈ rs.flatten ↔ ∃ x ∈ l, P x w := by
  intro l
  induction l with
  | nil => intro _; exact ⟨[], rfl, by simp⟩
  | cons x l ih =>
    intro h
    obtain ⟨r, r1, r2⟩ := h x (by simp)
    obtain ⟨rs, k1, k2⟩ := ih fun y hy => h y (by simp [hy])
    refine ⟨r :: rs, by rw [List.mapM_cons, r1, k1]; rfl, fun w => ?_⟩
    rw [List.flatten_cons, List.mem_append, r2, k2]
    simp

variable {C : Codec} {byte : Nat → Byte} {wide : Byte → Nat} {A : List Byte} {D : RusDict} {st : RusState}

/-- `GetWordset` of the dictionary. -/
def rusWordset (C : Codec) (im : RusImages) (strbuf : List Nat) (tail smatch : List Byte) (junk : Nat → List Byte) (t : List Nat) (exc inc : Nat) :
    Option (List (List Nat)) :=
  getWordset (fun client w => wideFindMatch C strbuf (fun cl s => rusFindMatch im tail smatch cl s) client w) (fun id => rusWdInfo im (junk id) id) t exc inc

/-- What the dictionary answers. -/
theorem rusWordset_eq (hC : C.Ok byte wide) (hL : LetterCode byte wide) (h : RusOk A D st) (hw : RusWildOk D) (hi : RusIdsOk D st)
    (hids : (D.arts.map RusArticle.id).Nodup) (hfew : D.FewReadings) (hn : D.GameNouns)
    (tail smatch : List Byte) (htail : tail ≠ []) (hbuf : smatch.length = 48) (strbuf : List Nat) (hstr : strbuf.length = 0x200 * 0x30)
    (junk : Nat → List Byte) (hj : ∀ id, (lexkey id).length + (junk id).length = 16)
    {t : List Nat} (ht : FiveTemplate t) (exc inc : Nat) (hinc : inc < 2 ^ 32) :
    ∃ l, rusWordset C (st.images D.mtab) strbuf tail smatch junk t exc inc = some l ∧
      ∀ w, w ∈ l ↔ D.GameWord wide w ∧ Answers t exc inc w := by
  have hb := tmpl_byte hL ht
  have hlow : (t.map byte).map rusTab.lower = t.map byte := by
    rw [List.map_congr_left (g := id) (fun b hb' => by
      rcases hb b hb' with k | ⟨k1, k2⟩
      · exact rusTab_game b (by omega) (.inl k)
      · exact rusTab_game b k2 (.inr k1)), List.map_id]
  have h42 : 42 ∉ t.map byte := fun hm => by rcases hb 42 hm with k | k <;> omega
  have hstar : StarLast (t.map byte) := by
    revert h42
    generalize t.map byte = p
    intro hp
    induction p with
    | nil => trivial
    | cons c p ih => exact ⟨fun k => absurd (by simp [k]) hp, ih fun k => hp (by simp [k])⟩
  obtain ⟨cs, ⟨R, hR, -⟩, hcs⟩ := C40_rus_findMatch hC h hw tail smatch htail hbuf strbuf hstr (fun _ => 0) t
    (by intro h0; have := ht.1; simp [h0] at this) (by have := ht.1; omega) (by
      rw [wordParts_length]
      have : dlmCount rusTab (t.map byte) ≤ (t.map byte).length := List.length_filter_le _ _
      rw [List.length_map, ht.1] at this
      omega) (by rw [hlow]; exact hstar) hids hfew
  rw [hlow] at hR
  have mem_iff : ∀ c m, (∃ d ∈ cs, d.1 = c ∧ m ∈ d.2) ↔ ∃ x ∈ R, x.report = (c, m) := by
    intro c m
    have : (c, m) ∈ (cs.flatMap fun c => c.2.map fun m => (c.1, m)) ↔ (c, m) ∈ R.map WildHit.report := by rw [hR.reported]
    simp only [List.mem_flatMap, List.mem_map, Prod.mk.injEq] at this
    constructor
    · rintro ⟨d, hd, rfl, hm⟩
      exact this.1 ⟨d, hd, m, hm, rfl, rfl⟩
    · intro hx
      obtain ⟨d, hd, m', hm, rfl, rfl⟩ := this.2 hx
      exact ⟨d, hd, rfl, hm⟩
  have hsame : ∀ a ∈ D.arts, ∀ b ∈ D.arts, b.id = a.id → b = a := fun a ha b hb e => List.inj_on_of_nodup_map hids hb ha e
  have hrep : ∀ x ∈ R, x.art.Noun → x.report = (x.art.id, ⟨x.art.stem ++ x.alt ++ x.ending,
      if x.art.Inflected then mapWordInfo x.art.wdinfo x.gram.gramm x.gram.flags else 255⟩) := by
    intro x hx hnoun
    have hf := (hR.found x).1 hx
    rw [WildHit.report]
    by_cases hinf : x.art.Inflected
    · rw [if_pos hinf, if_pos hinf, (hn _ hf.art hnoun).1, List.append_nil]
    · have hr := hf.reads
      rw [RusDict.Reads, if_neg hinf] at hr
      rw [if_neg hinf, if_neg hinf, hr.1, hr.2.1]; simp
  have hcall : ∀ c ∈ cs, ∃ r, wordsetCall (fun id => rusWdInfo (st.images D.mtab) (junk id) id) exc inc (wideCall wide c) = some r ∧
      ∀ w, w ∈ r ↔ ∃ m ∈ c.2, (∃ a ∈ D.arts, a.id = c.1 ∧ a.Noun) ∧ (m.id = 0 ∨ m.id = 255) ∧ m.text.map wide = w ∧
        (∀ c ∈ w, ¬ InSet exc c) ∧ ∀ c, InSet inc c → c ∈ w := by
    intro c hc
    obtain ⟨m0, hm0⟩ := List.exists_mem_of_ne_nil _ (hR.nonempty c hc)
    obtain ⟨x, hx, ex⟩ := (mem_iff c.1 m0).1 ⟨c, hc, rfl, hm0⟩
    have hf := (hR.found x).1 hx
    have hid : x.art.id = c.1 := congrArg Prod.fst ex
    have hinfo := C47_part_of_speech h hi x.art hf.art (fun b hb e => by rw [hsame _ hf.art b hb e]) (junk c.1) (by rw [hid]; exact hj _)
    rw [hid] at hinfo
    have hnoun_iff : (∃ a ∈ D.arts, a.id = c.1 ∧ a.Noun) ↔ x.art.Noun := by
      constructor
      · rintro ⟨a, ha, e, k⟩; rw [hsame a ha x.art hf.art (hid.trans e.symm)]; exact k
      · intro k; exact ⟨x.art, hf.art, hid, k⟩
    by_cases hnoun : x.art.Noun
    · obtain ⟨l, l1, l2⟩ := wordsetForms_eq exc inc hinc (wideCall wide c).2 (by
        intro m hm hmid
        obtain ⟨m', hm', rfl⟩ := List.mem_map.1 hm
        obtain ⟨y, hy, ey⟩ := (mem_iff c.1 m').1 ⟨c, hc, rfl, hm'⟩
        have hfy := (hR.found y).1 hy
        have hyid : y.art.id = c.1 := congrArg Prod.fst ey
        have hya : y.art = x.art := hsame _ hf.art _ hfy.art (hyid.trans hid.symm)
        have hyn : y.art.Noun := by rw [hya]; exact hnoun
        have hr := hrep y hy hyn
        have hm2 : m' = _ := congrArg Prod.snd (ey.symm.trans hr)
        subst hm2
        have hfit := hfy.fits
        rw [hr, wildMatch_plain h42] at hfit
        have hlen5 : (y.art.stem ++ y.alt ++ y.ending).length = 5 := by rw [← hfit.1, List.length_map, ht.1]
        intro b hb
        obtain ⟨b', hb', rfl⟩ := List.mem_map.1 hb
        have hrange := (hn _ hfy.art hyn).2 _ _ _ hfy.reads (fun hinf => by simpa only [if_pos hinf] using hmid) hlen5 b' hb'
        have := hL.back (b' - 224) (by omega)
        rw [show 224 + (b' - 224) = b' by omega] at this
        rw [this]; unfold SmallLetter; omega)
      refine ⟨l, ?_, fun w => (l2 w).trans ?_⟩
      · simp only [wordsetCall, show (wideCall wide c).1 = c.1 from rfl, hinfo, bind, Option.bind_some]
        rw [if_pos (show x.art.pos ≥ 7 ∧ x.art.pos ≤ 23 from hnoun)]; exact l1
      · constructor
        · rintro ⟨m, hm, k1, k2, k3⟩
          obtain ⟨m', hm', rfl⟩ := List.mem_map.1 hm
          exact ⟨m', hm', hnoun_iff.2 hnoun, k1, k2, k3⟩
        · rintro ⟨m, hm, -, k1, k2, k3⟩
          exact ⟨_, List.mem_map.2 ⟨m, hm, rfl⟩, k1, k2, k3⟩
    · refine ⟨[], ?_, fun w => ?_⟩
      · simp only [wordsetCall, show (wideCall wide c).1 = c.1 from rfl, hinfo, bind, Option.bind_some]
        rw [if_neg (show ¬ (x.art.pos ≥ 7 ∧ x.art.pos ≤ 23) from hnoun)]; rfl
      · simp [hnoun_iff, hnoun]
  obtain ⟨rs, r1, r2⟩ := mapM_flatten hcall
  refine ⟨rs.flatten, ?_, fun w => (r2 w).trans ?_⟩
  · simp only [rusWordset, getWordset, hcs, bind, Option.bind_some, List.mapM_map]
    have : (wordsetCall (fun id => rusWdInfo (st.images D.mtab) (junk id) id) exc inc ∘ wideCall wide) =
      fun c => wordsetCall (fun id => rusWdInfo (st.images D.mtab) (junk id) id) exc inc (wideCall wide c) := rfl
    rw [this, r1]; rfl
  · constructor
    · rintro ⟨c, hc, m, hm, ⟨a, ha, hid, hnoun⟩, k1, rfl, k2, k3⟩
      obtain ⟨x, hx, ex⟩ := (mem_iff c.1 m).1 ⟨c, hc, rfl, hm⟩
      have hf := (hR.found x).1 hx
      have hxa : x.art = a := hsame a ha _ hf.art ((congrArg Prod.fst ex : x.art.id = c.1).trans hid.symm)
      have hxn : x.art.Noun := by rw [hxa]; exact hnoun
      have hr := hrep x hx hxn
      have hm2 : m = _ := congrArg Prod.snd (ex.symm.trans hr)
      subst hm2
      have hfit := hf.fits
      rw [hr, wildMatch_plain h42] at hfit
      have hlen5 : (x.art.stem ++ x.alt ++ x.ending).length = 5 := by rw [← hfit.1, List.length_map, ht.1]
      have hnum : x.art.Inflected → mapWordInfo x.art.wdinfo x.gram.gramm x.gram.flags = 0 ∨ mapWordInfo x.art.wdinfo x.gram.gramm x.gram.flags = 255 :=
        fun hinf => by simpa only [if_pos hinf] using k1
      have hrange := (hn _ hf.art hxn).2 _ _ _ hf.reads hnum hlen5
      exact ⟨⟨x.art, hf.art, hxn, x.alt, x.ending, x.gram, hf.reads, hnum, hlen5, rfl⟩, ⟨(fits_bytes hL ht hrange).1 hfit, k2, k3⟩⟩
    · rintro ⟨⟨a, ha, hnoun, x, e, g, hreads, hnum, hlen5, rfl⟩, hans⟩
      have hrange := (hn a ha hnoun).2 x e g hreads hnum hlen5
      have hfit := (fits_bytes hL ht hrange).2 hans.fits
      have hfound : D.WildFound (t.map byte) ⟨a, x, e, g⟩ := by
        refine ⟨ha, hreads, ?_, fun _ => .inr (.inl (hn a ha hnoun).1)⟩
        rw [wildMatch_plain h42]
        rw [WildHit.report]
        by_cases hinf : a.Inflected
        · rw [if_pos hinf]; simpa only [(hn a ha hnoun).1, List.append_nil] using hfit
        · have hr := hreads
          rw [RusDict.Reads, if_neg hinf] at hr
          rw [if_neg hinf]
          rw [hr.1, hr.2.1] at hfit
          simpa using hfit
      have hxR := (hR.found _).2 hfound
      have hr := hrep _ hxR hnoun
      obtain ⟨c, hc, e1, hm⟩ := (mem_iff _ _).2 ⟨_, hxR, hr⟩
      refine ⟨c, hc, _, hm, ⟨a, ha, e1.symm, hnoun⟩, ?_, rfl, hans.without, hans.containing⟩
      by_cases hinf : a.Inflected
      · simpa only [if_pos hinf] using hnum hinf
      · simp only [if_neg hinf, or_true]

/-- **C91** The questions: what `GetWordset` returns for a template of small letters and question marks, a set of excluded and a set of required letters
is exactly the words of the dictionary that fit - forms of nouns in the nominative singular or uninflected, of five letters, fitting the
template, without an excluded letter and with every required one; each of them a word of small letters. -/
theorem C91_wordset (hC : C.Ok byte wide) (hL : LetterCode byte wide) (h : RusOk A D st) (hw : RusWildOk D) (hi : RusIdsOk D st)
    (hids : (D.arts.map RusArticle.id).Nodup) (hfew : D.FewReadings) (hn : D.GameNouns)
    (tail smatch : List Byte) (htail : tail ≠ []) (hbuf : smatch.length = 48) (strbuf : List Nat) (hstr : strbuf.length = 0x200 * 0x30)
    (junk : Nat → List Byte) (hj : ∀ id, (lexkey id).length + (junk id).length = 16) :
    ∃ words, (∀ w, w ∈ words ↔ D.GameWord wide w) ∧ WordSource (rusWordset C (st.images D.mtab) strbuf tail smatch junk) words := by
  have key := fun t ht exc inc hinc => rusWordset_eq hC hL h hw hi hids hfew hn tail smatch htail hbuf strbuf hstr junk hj (t := t) ht exc inc hinc
  have hq : FiveTemplate [63, 63, 63, 63, 63] := ⟨rfl, by simp⟩
  have hword : ∀ w, D.GameWord wide w → FiveLetters w := by
    rintro w ⟨a, ha, hnoun, x, e, g, hr, hnum, h5, rfl⟩
    refine ⟨by rw [List.length_map]; exact h5, fun c hc => ?_⟩
    obtain ⟨b, hb, rfl⟩ := List.mem_map.1 hc
    have hrange := (hn a ha hnoun).2 x e g hr hnum h5 b hb
    have := hL.back (b - 224) (by omega)
    rw [show 224 + (b - 224) = b by omega] at this
    rw [this]; unfold SmallLetter; omega
  obtain ⟨words, -, h2⟩ := key [63, 63, 63, 63, 63] hq 0 0 (by decide)
  have hall : ∀ w, w ∈ words ↔ D.GameWord wide w := by
    intro w
    rw [h2 w]
    constructor
    · exact And.left
    · intro hg
      refine ⟨hg, ⟨?_, ?_⟩, fun c _ => not_inSet_zero c, fun c hc => absurd hc (not_inSet_zero c)⟩
      · rw [(hword w hg).1]; rfl
      · intro i
        by_cases hi : i < 5
        · left
          have : ∀ i < 5, ([63, 63, 63, 63, 63] : List Nat)[i]? = some 63 := by decide
          exact this i hi
        · right
          rw [List.getElem?_eq_none (by simp; omega), List.getElem?_eq_none (by rw [(hword w hg).1]; omega)]
  refine ⟨words, hall, fun w hw => hword w ((hall w).1 hw), fun t exc inc ht _ hinc => ?_⟩
  obtain ⟨l, l1, l2⟩ := key t ht exc inc hinc
  exact ⟨l, l1, fun w => by rw [l2, hall]⟩

/-! ### The game -/

/-- **C91** The game, for any source of words, sample, template and set of letters excluded at the start.  It always ends, after at most one pass for each
word and one more; it never tries a word twice and shows the right markup of each; it finds the sample exactly if that is a
word of the source, fits the template, and the first question has an answer at all - the letters excluded at the start are
forgotten after the first guess. -/
theorem C91_game {ask : List Nat → Nat → Nat → Option (List (List Nat))} {words : List (List Nat)} (ha : WordSource ask words)
    (sample search excluded : List Nat) (hs : FiveLetters sample) (ht : FiveTemplate search) (he : ∀ c ∈ excluded, SmallLetter c)
    (n : Nat) (hn : words.length < n) :
    ∃ found shown, gameMain ask sample search excluded n = some (some (found, shown)) ∧
      shown.length ≤ words.length ∧ (shown.map Prod.fst).Nodup ∧ (∀ p ∈ shown, p.1 ∈ words ∧ IsMarkup sample p.1 p.2) ∧
      (found = true → (shown.map Prod.fst).getLast? = some sample) ∧ (found = false → sample ∉ shown.map Prod.fst) ∧
      (found = true ↔ sample ∈ words ∧ FitsTemplate search sample ∧ ∃ w ∈ words, FitsTemplate search w ∧ ∀ c ∈ w, c ∉ excluded) := by
  obtain ⟨mask, m1, m2, m3⟩ := makeMask_eq excluded 0 he (by decide)
  have m3 : ∀ c, InSet mask c ↔ c ∈ excluded := fun c => (m3 c).trans (by simp [not_inSet_zero])
  obtain ⟨l, l1, l2⟩ := ha.exact search mask 0 ht m2 (by decide)
  have l2 : ∀ w, w ∈ l ↔ w ∈ words ∧ FitsTemplate search w ∧ ∀ c ∈ w, c ∉ excluded := by
    intro w
    rw [l2 w]
    refine and_congr_right fun _ => ⟨fun k => ⟨k.fits, fun c hc h => k.without c hc ((m3 c).2 h)⟩,
      fun k => ⟨k.1, fun c hc h => k.2 c hc ((m3 c).1 h), fun c hc => absurd hc (not_inSet_zero c)⟩⟩
  have hg : GameOk words sample ⟨search, 0, 0, l, [], []⟩ :=
    ⟨ht, show (0 : Nat) < 2 ^ 32 by decide, show (0 : Nat) < 2 ^ 32 by decide, fun w hw => ⟨((l2 w).1 hw).1, ((l2 w).1 hw).2.1⟩, rfl, by simp, by simp, by simp, by simp⟩
  obtain ⟨b, shown, b1, b2, b3, b4, b5, b6, b7⟩ := gameLoop_ends ha hs n hg (by simp; omega)
  refine ⟨b, shown, by simp only [gameMain, m1, l1, bind, Option.bind_some]; exact b1, ?_, b2, b3, b5, ?_, ?_⟩
  · have := nodup_room b2 fun w hw => by
      obtain ⟨p, hp, rfl⟩ := List.mem_map.1 hw
      exact (b3 p hp).1
    simpa using this
  · intro hf hm
    rw [b4.2 hm] at hf; cases hf
  · constructor
    · intro hb
      obtain ⟨k1, k2⟩ := b6 hb
      refine ⟨k1, by_contra fun hc => k2 (misfit_or ht.1 hs.1 hc), ?_⟩
      by_contra hno
      have hl : l = [] := by
        rw [List.eq_nil_iff_forall_not_mem]
        intro w hw
        obtain ⟨q1, q2, q3⟩ := (l2 w).1 hw
        exact hno ⟨w, q1, q2, q3⟩
      have hlost : gameMain ask sample search excluded n = some (some (false, [])) := by
        obtain ⟨n, rfl⟩ : ∃ k, n = k + 1 := ⟨n - 1, by omega⟩
        simp [gameMain, m1, l1, hl, gameLoop, gameStep]
      have : gameMain ask sample search excluded n = some (some (b, shown)) := by
        simp only [gameMain, m1, l1, bind, Option.bind_some]; exact b1
      rw [hlost] at this
      simp only [Option.some.injEq, Prod.mk.injEq] at this
      rw [← this.1] at hb; cases hb
    · rintro ⟨k1, k2, w, k3, k4, k5⟩
      refine b7 k1 ⟨k2, fun c _ => not_inSet_zero c, fun c hc => absurd hc (not_inSet_zero c)⟩ (.inr ⟨rfl, ?_⟩)
      exact List.ne_nil_of_mem ((l2 w).2 ⟨k3, k4, k5⟩)

/-- **C91** The word that is tried is one of those not yet tried whose rank no other exceeds. -/
theorem C91_best (tested hypots : List (List Nat)) (h : ∀ w ∈ hypots, ∀ c ∈ w, SmallLetter c) {word : List Nat} {s : Nat}
    (hp : pickLoop tested hypots none = some (some (word, s))) :
    word ∈ hypots ∧ word ∉ tested ∧ wordRank word 0 = some s ∧ ∀ v ∈ hypots, v ∉ tested → ∀ q, wordRank v 0 = some q → q ≤ s := by
  obtain ⟨r, h1, h2, h3, h4⟩ := pickLoop_eq tested hypots none h
  rw [hp, Option.some.injEq] at h1
  subst h1
  rcases h2 word s rfl with k | ⟨k1, k2, k3⟩
  · cases k
  · exact ⟨k1, k2, k3, (h4 word s rfl).2⟩

/-- The literals of the program: "шляпа", "те???", "видойкалунсь". -/
def gameSample : List Nat := [0x448, 0x43b, 0x44f, 0x43f, 0x430]
def gameSearch : List Nat := [0x442, 0x435, 63, 63, 63]
def gameExcluded : List Nat := [0x432, 0x438, 0x434, 0x43e, 0x439, 0x43a, 0x430, 0x43b, 0x443, 0x43d, 0x441, 0x44c]

/-- **C91** refuted for the program as it is shipped: with any dictionary it does not find its sample, which does not fit its template. -/
theorem C91_shipped {ask : List Nat → Nat → Nat → Option (List (List Nat))} {words : List (List Nat)} (ha : WordSource ask words) (n : Nat) (hn : words.length < n) :
    ∃ shown, gameMain ask gameSample gameSearch gameExcluded n = some (some (false, shown)) := by
  obtain ⟨found, shown, h1, -, -, -, -, -, h2⟩ := C91_game ha gameSample gameSearch gameExcluded ⟨rfl, by unfold SmallLetter; decide⟩
    ⟨rfl, by unfold SmallLetter; decide⟩ (by unfold SmallLetter; decide) n hn
  cases found with
  | false => exact ⟨shown, h1⟩
  | true =>
    obtain ⟨-, ⟨-, k⟩, -⟩ := h2.1 rfl
    have := k 0
    exact absurd this (by decide)

/-- **C91** refuted for the program as it is shipped: it does not even get the dictionary.  The name it gives to `mlmaruGetAPI` lacks the prefix, the call
is refused and the pointer stays null; so does that of wildcards.cpp, and samples/sample-libmorphrus.cpp.  With the prefix it would be set. -/
theorem C91_no_object (junk : List Byte) :
    loadMorpho (cstr (asciiBytes "utf-16") junk) = some none ∧ loadMorpho (cstr (asciiBytes "utf-8") junk) = some none ∧
    loadMorpho (cstr (asciiBytes (libmorphMagic ++ ":") ++ asciiBytes "utf-16") junk) = some (some .wide) := by
  refine ⟨?_, ?_, ?_⟩
  · rw [loadMorpho, (C32_refused (.inl rfl) (asciiBytes "utf-16") junk true (by decide +kernel)).1]; rfl
  · rw [loadMorpho, (C32_refused (.inl rfl) (asciiBytes "utf-8") junk true (by decide +kernel)).1]; rfl
  · rw [loadMorpho, C32_known (.inl rfl) (i := .wide) (by decide +kernel) ⟨"utf-16", by decide +kernel, by decide +kernel⟩]; rfl

/-- **C91** refuted for words with other characters: a hyphen or the letter ё makes a shift by a number that is out of range. -/
theorem C91_other_letters (exc : Nat) : isExcluded [0x2d] exc = none ∧ isExcluded [0x451] exc = none := by
  constructor <;> simp [isExcluded, letterBit]

/-! ### A dictionary -/

/-- Four nouns that are not inflected - "такси", "шоссе", "какао", "метро" - and the adverb "зимой". -/
def gameArts : List RusArticle :=
  [⟨[242, 224, 234, 241, 232], 21, 0, 0, [], 21⟩, ⟨[248, 238, 241, 241, 229], 21, 0, 0, [], 22⟩, ⟨[234, 224, 234, 224, 238], 21, 0, 0, [], 23⟩,
   ⟨[236, 229, 242, 240, 238], 21, 0, 0, [], 24⟩, ⟨[231, 232, 236, 238, 233], 54, 0, 0, [], 25⟩]

def gameDict : RusDict := ⟨[], [0], fun _ => [], gameArts⟩

def gameDictLetters : List Byte := [224, 229, 231, 232, 233, 234, 236, 238, 240, 241, 242, 248]

theorem gameDict_builds : (rusBuild gameDict.ftab gameDict.mtab gameDict.arts).isSome := by decide +kernel

def gameDictState : RusState := (rusBuild gameDict.ftab gameDict.mtab gameDict.arts).get gameDict_builds

theorem gameDict_plain : ∀ a ∈ gameDict.arts, ¬ a.Inflected := by decide

theorem gameDict_ok : RusOk gameDictLetters gameDict gameDictState where
  built := by simp [gameDictState]
  alpha := by decide
  letters := by decide
  stems := by decide
  short := by decide
  ids := by decide
  posts := by decide
  text := by decide
  words := by decide
  prepos := by decide
  plainw := by decide
  refs := by decide
  tables := fun a ha h => absurd h (gameDict_plain a ha)
  long := fun a ha h => absurd h (gameDict_plain a ha)
  mixes := by
    have : ∀ a ∈ gameDict.arts, a.mtoffs = 0 := by decide
    exact fun a ha h => absurd (this a ha) h
  covers := fun a ha => C45_bounds_cover_partial gameDict a (fun h => absurd h (gameDict_plain a ha)) (fun h => absurd h (gameDict_plain a ha))
    (fun h => absurd h (gameDict_plain a ha))
  count := by decide
  classes := by decide +kernel
  plain := by decide +kernel
  size := by decide +kernel

theorem gameDict_wild : RusWildOk gameDict where
  ends := fun a ha h => absurd h (gameDict_plain a ha)
  mixes := fun a ha h => absurd h (gameDict_plain a ha)
  posts := by decide
  stems := by decide
  bare := fun a ha h => absurd h (gameDict_plain a ha)
  short := fun a ha h => absurd h (gameDict_plain a ha)
  ids := by decide

theorem gameDict_ids : RusIdsOk gameDict gameDictState := ⟨by decide, by decide +kernel⟩

theorem gameDict_few : gameDict.FewReadings := by
  intro a ha l hl hr
  have : l.length ≤ 1 := by
    match l, hl, hr with
    | [], _, _ => simp
    | [_], _, _ => simp
    | q :: r :: l, hl, hr =>
      have h1 := hr q (by simp)
      have h2 := hr r (by simp)
      rw [RusDict.Reads, if_neg (gameDict_plain a ha)] at h1 h2
      have : q = r := Prod.ext (h1.1.trans h2.1.symm) (Prod.ext (h1.2.1.trans h2.2.1.symm) (h1.2.2.trans h2.2.2.symm))
      simp [this] at hl
  omega

theorem gameDict_nouns : gameDict.GameNouns := by
  intro a ha hn
  have h1 : ∀ a ∈ gameDict.arts, a.post = [] ∧ ∀ b ∈ a.stem, 224 ≤ b ∧ b < 256 := by decide
  refine ⟨(h1 a ha).1, fun x e g hr _ _ => ?_⟩
  rw [RusDict.Reads, if_neg (gameDict_plain a ha)] at hr
  rw [hr.1, hr.2.1]
  simpa using (h1 a ha).2

/-- The conversion between the small letters and the code page 1251. -/
def smallByte (c : Nat) : Byte := if 0x430 ≤ c ∧ c < 0x450 then c - 0x430 + 224 else c % 256
def smallWide (b : Byte) : Nat := if 224 ≤ b ∧ b < 256 then b - 224 + 0x430 else b

def smallCodec : Codec where
  narrow n w := if w.length < n then some (w.map smallByte) else none
  widen n s := if s.length < n then (some s.length, s.map smallWide ++ [0]) else (none, [])

theorem smallCodec_ok : smallCodec.Ok smallByte smallWide := by
  refine ⟨?_, ?_, ?_⟩
  · intro n w s h
    simp only [smallCodec] at h
    split at h
    · cases h; exact ⟨rfl, by simp; omega⟩
    · cases h
  · intro n w h; simp [smallCodec, h]
  · intro n s h _; simp [smallCodec, h]

theorem small_letters : LetterCode smallByte smallWide := by
  refine ⟨by decide, fun k hk => ?_, fun k hk => ?_⟩
  · rw [smallByte, if_pos (by omega)]; omega
  · rw [smallWide, if_pos (by omega)]; omega

/-- The four nouns are what the game is played with; the adverb is not. -/
theorem gameDict_words (w : List Nat) : gameDict.GameWord smallWide w ↔ w ∈ (gameArts.take 4).map fun a => a.stem.map smallWide := by
  have h1 : ∀ a ∈ gameArts, 7 ≤ a.pos ∧ a.pos ≤ 23 → a ∈ gameArts.take 4 := by decide
  have h2 : ∀ a ∈ gameArts.take 4, a ∈ gameArts ∧ (7 ≤ a.pos ∧ a.pos ≤ 23) ∧ a.stem.length = 5 := by decide
  constructor
  · rintro ⟨a, ha, hn, x, e, g, hr, -, -, rfl⟩
    rw [RusDict.Reads, if_neg (gameDict_plain a ha)] at hr
    rw [hr.1, hr.2.1]
    simp only [List.append_nil]
    exact List.mem_map.2 ⟨a, h1 a ha hn, rfl⟩
  · intro hw
    obtain ⟨a, ha, rfl⟩ := List.mem_map.1 hw
    obtain ⟨k1, k2, k3⟩ := h2 a ha
    refine ⟨a, k1, k2, [], [], ⟨a.tfoffs, 0⟩, ?_, fun h => absurd h (gameDict_plain a k1), by simpa using k3, by simp⟩
    · rw [RusDict.Reads, if_neg (gameDict_plain a k1)]; exact ⟨rfl, rfl, rfl⟩

/-- The hypotheses of `C91_wordset` and of `C91_game` are met together: with this dictionary the game finds "такси", whatever is excluded at the start
that leaves one of the words. -/
example : ∃ n shown, gameMain (rusWordset smallCodec (gameDictState.images gameDict.mtab) (List.replicate (0x200 * 0x30) 0) [0] (List.replicate 48 0)
    (fun id => List.replicate (16 - (lexkey id).length) 0)) ([242, 224, 234, 241, 232].map smallWide) [63, 63, 63, 63, 63] [0x442] n = some (some (true, shown)) := by
  obtain ⟨words, h1, h2⟩ := C91_wordset smallCodec_ok small_letters gameDict_ok gameDict_wild gameDict_ids (by decide) gameDict_few gameDict_nouns
    [0] (List.replicate 48 0) (by decide) (by rw [List.length_replicate]) (List.replicate (0x200 * 0x30) 0) (by rw [List.length_replicate])
    (fun id => List.replicate (16 - (lexkey id).length) 0) (fun id => by
      rw [List.length_replicate]
      have : (lexkey id).length ≤ 16 := by
        unfold lexkey
        split_ifs <;> simp
      omega)
  have hm : ∀ a ∈ gameArts.take 4, a.stem.map smallWide ∈ words := fun a ha => (h1 _).2 ((gameDict_words _).2 (List.mem_map.2 ⟨a, ha, rfl⟩))
  have hf : ∀ a ∈ gameArts.take 4, FitsTemplate [63, 63, 63, 63, 63] (a.stem.map smallWide) := by
    intro a ha
    have h5 : ∀ a ∈ gameArts.take 4, a.stem.length = 5 := by decide
    refine ⟨by rw [List.length_map, h5 a ha]; rfl, fun i => ?_⟩
    by_cases hi : i < 5
    · have : ∀ i < 5, ([63, 63, 63, 63, 63] : List Nat)[i]? = some 63 := by decide
      exact .inl (this i hi)
    · right
      rw [List.getElem?_eq_none (by simp; omega), List.getElem?_eq_none (by rw [List.length_map, h5 a ha]; omega)]
  obtain ⟨found, shown, g1, -, -, -, -, -, g2⟩ := C91_game h2 ([242, 224, 234, 241, 232].map smallWide) [63, 63, 63, 63, 63] [0x442]
    ⟨rfl, by unfold SmallLetter; decide⟩ ⟨rfl, by simp⟩ (by unfold SmallLetter; decide) (words.length + 1) (Nat.lt_succ_self _)
  have : found = true := g2.2 ⟨hm _ (by decide : gameArts.head (by decide) ∈ _), hf _ (by decide : gameArts.head (by decide) ∈ _),
    (gameArts[1]).stem.map smallWide, hm _ (by decide), hf _ (by decide), by decide⟩
  exact ⟨_, shown, this ▸ g1⟩

/-- A whole game, on a list: "такси" is tried before "метро" is found. -/
def listAsk (ws : List (List Nat)) (t : List Nat) (exc inc : Nat) : Option (List (List Nat)) :=
  some (ws.filter fun w => decide (t.length = w.length) && (List.range 5).all (fun i => t[i]? == some 63 || t[i]? == w[i]?) &&
    (isExcluded w exc == some false) && (isIncluded w inc == some true))

example : gameMain (listAsk ((gameArts.take 4).map fun a => a.stem.map smallWide)) ([236, 229, 242, 240, 238].map smallWide) [63, 63, 63, 63, 63] [] 5 =
    some (some (true, [([0x442, 0x430, 0x43a, 0x441, 0x438], [43, 45, 45, 45, 45]),
      ([0x43c, 0x435, 0x442, 0x440, 0x43e], [0x43c, 0x435, 0x442, 0x440, 0x43e])])) := by decide +kernel

end Libmorph
