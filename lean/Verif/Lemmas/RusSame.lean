import Verif.Lemmas.Order
import Verif.Lemmas.RusFormsApi
import Verif.Lemmas.RusLemm
/-
What the Russian analyser does with a class it has loaded depends on what the class says, not on where its tables stand.
-/
namespace Libmorph
open Spec

/-- A table whose reader never looks behind its end. -/
structure Closed (img : List Byte) : Prop where
  scan : ∀ (filter : FlexInfo → Bool) (part : List Byte), part.length < 64 → ∃ gs, ∀ junk tl, scanFlex filter (img ++ tl) ⟨part ++ junk, part.length⟩ = some gs
  forms : ∀ cap pre suf fx out tl tl', rusFlexForms cap (img ++ tl) pre suf fx out = rusFlexForms cap (img ++ tl') pre suf fx out
  first : ∀ tl tl', firstFlex (img ++ tl) = firstFlex (img ++ tl')

/-- `firstFlex` for one ending. -/
def firstFlexA (x : List FlexInfo) (tr : List Byte) (s : Option (Nat × FlexInfo)) : Option (Option Int × Option (Nat × FlexInfo)) :=
  if s.isNone || s.any (fun y => tr.length < y.1) then x.head?.map fun g => (none, some (tr.length, g))
  else some (none, s)

theorem closed_table {ftab B : List Byte} {tf : Nat} (hok : FlexOk ftab B tf)
    (hl : ∀ e g fl, Spec.Ending ftab tf e g fl → e.length ≤ 64) {img : List Byte} (himg : plainTable ftab tf = some img)
    (hsz : img.length < 2 ^ 32) : Closed img where
  scan := by
    intro filter part hp
    obtain ⟨gs, g1, _⟩ := C29_lookup_exact ftab B tf hok img himg hsz filter part hp
    exact ⟨gs, g1⟩
  forms := by
    intro cap pre suf fx out tl tl'
    simp only [plainTable, Option.map_eq_some_iff] at himg
    obtain ⟨t, ht, rfl⟩ := himg
    obtain ⟨hd, hf, hn, hch⟩ := createTree_find hok.bytes ht
    have hgrams : ∀ k x, t.find k = some x → GramsOk x := by
      intro k x hx
      obtain ⟨h1, _, h3⟩ := hf k x hx
      refine ⟨hok.few k x h1 (fun e he => (h3 e).1 he), fun g hg => ?_⟩
      exact Spec.Ending.ok hok.bytes ((h3 g).1 hg)
    have hall : t.All GramsOk := Tree.all_of_find hd hgrams
    have hlen := Tree.ser_length .u8 gramsSer gramsLen t GramsOk gramsSer_length hall
    have hgood : t.Good .u8 gramsLen :=
      Tree.good_of (A := B) hd (hch _ hok.endings) (by exact hok.alpha) (fun x hx => (hok.letters x hx).2) (by omega)
    have key : ∀ tl, getTrack .u8 (fun p tr s => do
        let (n, p) ← getbyte p
        flexFormLoop cap pre tr suf fx n p s) none 0x40 (t.ser .u8 gramsSer gramsLen ++ tl) [] (out, (0 : Int))
        = runHits (fun x k => flexFormA cap pre suf fx x ([] ++ k)) t.entries (out, (0 : Int)) := by
      intro tl
      refine getTrack_all .u8 gramsSer gramsLen GramsOk _ (fun x k s => flexFormA cap pre suf fx x k s) ?_ gramsSer_length t 0x40 [] tl _ hall hgood
        (createTree_depth ht hl)
      intro x hx tl tr s
      simp only [gramsSer, putserial_short (show x.length < 128 by have := hx.1; omega), List.cons_append, List.nil_append,
        List.append_assoc, getbyte, bind, Option.bind]
      exact flexFormLoop_ser cap pre tr suf fx x hx.2 tl s
    rw [rusFlexForms, rusFlexForms, key, key]
  first := by
    intro tl tl'
    simp only [plainTable, Option.map_eq_some_iff] at himg
    obtain ⟨t, ht, rfl⟩ := himg
    obtain ⟨hd, hf, hn, hch⟩ := createTree_find hok.bytes ht
    have hgrams : ∀ k x, t.find k = some x → GramsOk x ∧ x ≠ [] := by
      intro k x hx
      obtain ⟨h1, h2, h3⟩ := hf k x hx
      exact ⟨⟨hok.few k x h1 (fun e he => (h3 e).1 he), fun g hg => Spec.Ending.ok hok.bytes ((h3 g).1 hg)⟩, h2⟩
    have hall : t.All (fun x => GramsOk x ∧ x ≠ []) := Tree.all_of_find hd hgrams
    have hlen := Tree.ser_length .u8 gramsSer gramsLen t (fun x => GramsOk x ∧ x ≠ []) (fun x hx => gramsSer_length x hx.1) hall
    have hgood : t.Good .u8 gramsLen :=
      Tree.good_of (A := B) hd (hch _ hok.endings) (by exact hok.alpha) (fun x hx => (hok.letters x hx).2) (by omega)
    have key : ∀ tl, getTrack (ρ := Int) .u8 (fun p tr (s : Option (Nat × FlexInfo)) =>
        if s.isNone || s.any (fun x => tr.length < x.1) then do
          let (_, p) ← getbyte p
          let (gr, p) ← getword16 p
          let (fl, _) ← getbyte p
          return (none, some (tr.length, ⟨gr, fl⟩))
        else return (none, s)) none 0x40 (t.ser .u8 gramsSer gramsLen ++ tl) [] none
        = runHits (fun x k => firstFlexA x ([] ++ k)) t.entries none := by
      intro tl
      refine getTrack_all .u8 gramsSer gramsLen (fun x => GramsOk x ∧ x ≠ []) _ (fun x k s => firstFlexA x k s) ?_ (fun x hx => gramsSer_length x hx.1)
        t 0x40 [] tl _ hall hgood (createTree_depth ht hl)
      rintro x ⟨hx, hne⟩ tl tr s
      cases x with
      | nil => exact absurd rfl hne
      | cons g x =>
        obtain ⟨g1, g2⟩ := hx.2 g (by simp)
        simp only [gramsSer, putserial_short (show (g :: x).length < 128 by have := hx.1; omega), List.cons_append, List.nil_append,
          List.append_assoc, getbyte, bind, Option.bind, List.map_cons, List.flatten_cons, gramSer, getword16_putword16 g1, firstFlexA,
          Nat.mod_eq_of_lt g2, List.head?_cons, Option.map_some]
        rfl
    rw [firstFlex, firstFlex, key, key]

/-- Two loaded classes that say the same, in two libraries. -/
structure SameClass (im im' : RusImages) (c c' : RusStem) : Prop where
  mix : im.mxTables = im'.mxTables
  wdinfo : c.wdinfo = c'.wdinfo
  mtoffs : c.mtoffs = c'.mtoffs
  zero : c.tfoffs = 0 ↔ c'.tfoffs = 0
  table : (c.flexTable im.flexTree = none ∧ c'.flexTable im'.flexTree = none ∧ c.tfoffs = c'.tfoffs) ∨
    ∃ img r r', Closed img ∧ c.flexTable im.flexTree = some (img ++ r) ∧ c'.flexTable im'.flexTree = some (img ++ r')

variable {im im' : RusImages} {c c' : RusStem}

/-- Without tables. -/
theorem SameClass.bare (h : SameClass im im' c c') : SameClass im im' ⟨c.wdinfo, 0, 0⟩ ⟨c'.wdinfo, 0, 0⟩ :=
  ⟨h.mix, h.wdinfo, rfl, Iff.rfl, Or.inl ⟨by simp [RusStem.flexTable], by simp [RusStem.flexTable], rfl⟩⟩

theorem SameClass.minCap (h : SameClass im im' c c') : c.minCap = c'.minCap := by rw [RusStem.minCap, RusStem.minCap, h.wdinfo]

theorem SameClass.swap (h : SameClass im im' c c') : c.swapTable im.mxTables = c'.swapTable im'.mxTables := by
  rw [RusStem.swapTable, RusStem.swapTable, h.mix, h.mtoffs]

theorem SameClass.alt (h : SameClass im im' c c') (mixtab : List Byte) (fx : FlexInfo) : altFor c mixtab fx = altFor c' mixtab fx := by
  rw [altFor, altFor, h.wdinfo]

theorem SameClass.wordForms (h : SameClass im im' c c') (cap : Nat) (pre suf : List Byte) (fx : FlexInfo) (out : List Byte) :
    rusWordForms im cap pre suf c fx out = rusWordForms im' cap pre suf c' fx out := by
  rcases h.table with ⟨e1, e2, _⟩ | ⟨img, r, r', hc, e1, e2⟩
  · rw [rusWordForms, rusWordForms, e1, e2]
  · rw [rusWordForms, rusWordForms, e1, e2]
    simp only [h.swap]
    cases c'.swapTable im'.mxTables with
    | none => exact hc.forms _ _ _ _ _ _ _
    | some mixtab =>
      simp only [h.alt, hc.forms cap _ suf fx out r r']

theorem SameClass.firstForm (h : SameClass im im' c c') (cap : Nat) (pre suf out : List Byte) :
    rusFirstForm im cap pre suf c out = rusFirstForm im' cap pre suf c' out := by
  rcases h.table with ⟨e1, e2, _⟩ | ⟨img, r, r', hc, e1, e2⟩
  · rw [rusFirstForm, rusFirstForm, e1, e2]
  · rw [rusFirstForm, rusFirstForm, e1, e2]
    simp only [h.swap, hc.first r r', h.alt]

theorem SameClass.dictForms (h : SameClass im im' c c') (cap : Nat) (pre suf : List Byte) (fx : FlexInfo) (dwsets : Nat) :
    rusDictForms im cap pre suf c fx dwsets = rusDictForms im' cap pre suf c' fx dwsets := by
  rw [rusDictForms, rusDictForms]
  simp only [h.wordForms, h.firstForm, h.wdinfo]

theorem SameClass.formBuild (h : SameClass im im' c c') (idform : Nat) (stem suffix : List Byte) (s : FormState) :
    rusFormBuild im idform stem suffix c s = rusFormBuild im' idform stem suffix c' s := by
  rw [rusFormBuild, rusFormBuild]
  have hz : (c.tfoffs ≠ 0) = (c'.tfoffs ≠ 0) := propext (not_congr h.zero)
  simp only [h.wordForms, h.wdinfo, h.minCap, hz]

theorem SameClass.put (h : SameClass im im' c c') : rusPut c = rusPut c' := by
  funext g
  have hz : (c.tfoffs ≠ 0) = (c'.tfoffs ≠ 0) := propext (not_congr h.zero)
  simp only [rusPut, h.wdinfo, hz]

theorem SameClass.lemmCall (h : SameClass im im' c c') (dwsets nlexid : Nat) (stem suffix : List Byte) (grs : List Gram) (s : LemmState) :
    rusLemmCall im dwsets nlexid c stem suffix grs s = rusLemmCall im' dwsets nlexid c' stem suffix grs s := by
  cases grs with
  | nil => rfl
  | cons g grs =>
    have hf : rusLemmForm im dwsets stem suffix c ⟨g.grInfo, g.bFlags⟩ = rusLemmForm im' dwsets stem suffix c' ⟨g.grInfo, g.bFlags⟩ := by
      funext merge s
      simp only [rusLemmForm, h.dictForms, h.minCap]
    simp only [rusLemmCall, hf, h.put]

theorem mixCompare_take {mix : List Byte} {n : Nat} {f : Frag} (h : mixCompare mix n f = some .take) : n ≤ f.len := by
  simp only [mixCompare, bind, Option.bind] at h
  split at h
  · simp at h
  · rename_i o ho
    cases o with
    | lt => simp at h
    | gt => simp at h
    | eq =>
      simp only [pure, Option.some.injEq, ite_eq_right_iff, reduceCtorEq, imp_false] at h
      omega

theorem mixLoop_congr {σ ρ : Type} {call call' : Nat → Frag → σ → Option (Option ρ × σ)} (part junk : List Byte)
    (h : ∀ p m s, m ≤ part.length → call p ⟨part.drop m ++ junk, (part.drop m).length⟩ s = call' p ⟨part.drop m ++ junk, (part.drop m).length⟩ s) :
    ∀ (n : Nat) (p : List Byte) (s : σ), mixLoop call ⟨part ++ junk, part.length⟩ n p s = mixLoop call' ⟨part ++ junk, part.length⟩ n p s
  | 0, p, s => rfl
  | n + 1, p, s => by
    rw [mixLoop, mixLoop]
    cases hb : getbyte p with
    | none => rfl
    | some z =>
      obtain ⟨head, p⟩ := z
      simp only [bind, Option.bind]
      cases hm : mixCompare p (head &&& 0x0f) ⟨part ++ junk, part.length⟩ with
      | none => rfl
      | some o =>
        cases o with
        | stop => rfl
        | skip => exact mixLoop_congr part junk h n _ s
        | take =>
          have hle := mixCompare_take hm
          simp only at hle
          have e : (⟨(part ++ junk).drop (head &&& 0x0f), part.length - (head &&& 0x0f)⟩ : Frag)
              = ⟨part.drop (head &&& 0x0f) ++ junk, (part.drop (head &&& 0x0f)).length⟩ := by
            rw [List.drop_append_of_le_length hle, List.length_drop]
          simp only [e, h _ _ _ hle]
          cases call' (head >>> 4) ⟨part.drop (head &&& 0x0f) ++ junk, (part.drop (head &&& 0x0f)).length⟩ s with
          | none => rfl
          | some z =>
            obtain ⟨q, s⟩ := z
            cases q with
            | some q => rfl
            | none => exact mixLoop_congr part junk h n _ s

/-- Matching the rest of a word against a class. -/
theorem rusMatch_same {σ ρ : Type} {target target' : RusTarget σ ρ} {oclass oclass' : Nat} (h1 : loadRus im.classmap oclass = some c)
    (h2 : loadRus im'.classmap oclass' = some c') (h : SameClass im im' c c') (part junk suffix : List Byte) (hp : part.length < 64) (id scheme dwsets : Nat)
    (ht : ∀ d d' grs s, SameClass im im' d d' → target id d ⟨part ++ junk, part.length⟩ suffix grs s = target' id d' ⟨part ++ junk, part.length⟩ suffix grs s)
    (s : σ) :
    rusMatch im scheme dwsets target id oclass ⟨part ++ junk, part.length⟩ suffix s
      = rusMatch im' scheme dwsets target' id oclass' ⟨part ++ junk, part.length⟩ suffix s := by
  simp only [rusMatch, h1, h2, bind, Option.bind, h.minCap]
  split
  · rfl
  · rcases h.table with ⟨e1, e2, e3⟩ | ⟨img, r, r', hc, e1, e2⟩
    · rw [e1, e2]
      simp only [e3]
      rw [ht _ _ _ _ h.bare]
    · rw [e1, e2]
      simp only [h.swap]
      cases c'.swapTable im'.mxTables with
      | none =>
        obtain ⟨gs, hg⟩ := hc.scan (flexFilter c'.wdinfo) part hp
        simp only [h.wdinfo, hg, ht _ _ _ _ h]
      | some mixtab =>
        simp only [mixScan, bind, Option.bind]
        cases getbyte mixtab with
        | none => rfl
        | some z =>
          obtain ⟨n, p⟩ := z
          refine mixLoop_congr part junk ?_ n p s
          intro pw m s hm
          obtain ⟨gs, hg⟩ := hc.scan (altFilter c'.wdinfo pw) (part.drop m) (by rw [List.length_drop]; omega)
          simp only [h.wdinfo, hg, ht _ _ _ _ h]

end Libmorph
