import Verif.Spec.Script
import Verif.Lemmas.Abugida
import Verif.Lemmas.Dict
import Verif.Props.Abugida
import Mathlib.Data.List.Dedup
/-!
# C123: the tables of an `AbugidaLang`; C69 and C75 for every writing system
-/

namespace Verif
open Spec

theorem ordCp_iff {v : CodePt} {c : Nat} : ordCp v = .ok c ↔ Denotes v c := by
  unfold Denotes
  rcases v with n | s
  · simp [ordCp]
  · rcases s with _ | ⟨d, _ | ⟨e, s⟩⟩ <;> simp [ordCp]

theorem denotes_inj {v : CodePt} {c d : Nat} (h : Denotes v c) (h' : Denotes v d) : c = d := by
  rw [← ordCp_iff] at h h'
  rw [h] at h'
  exact Except.ok.inj h'

theorem ordCp_err {v : CodePt} (h : ¬ ∃ c, Denotes v c) : ordCp v = .error .type := by
  cases ho : ordCp v with
  | ok c => exact absurd ⟨c, ordCp_iff.1 ho⟩ h
  | error e =>
    rcases v with n | s
    · simp [ordCp] at ho
    · rcases s with _ | ⟨d, _ | ⟨e', s⟩⟩ <;> simp [ordCp] at ho <;> rw [ho]

theorem ordOpt_iff {v : Option CodePt} {f : Option Nat} : ordOpt v = .ok f ↔ DenotesSign v f := by
  unfold DenotesSign
  rcases v with _ | u
  · simp [ordOpt, eq_comm]
  · simp only [ordOpt, reduceCtorEq, false_and, false_or, Option.some.injEq]
    cases h : ordCp u with
    | error e =>
      simp only [reduceCtorEq, false_iff]
      rintro ⟨_, c, rfl, _, hd⟩
      rw [ordCp_iff.2 hd] at h
      cases h
    | ok c =>
      simp only [Except.ok.injEq]
      constructor
      · rintro rfl
        exact ⟨u, c, rfl, rfl, ordCp_iff.1 h⟩
      · rintro ⟨_, d, rfl, rfl, hd⟩
        rw [denotes_inj (ordCp_iff.1 h) hd]

theorem ordOpt_err {v : Option CodePt} (h : ¬ ∃ f, DenotesSign v f) : ordOpt v = .error .type := by
  rcases v with _ | u
  · exact absurd ⟨none, .inl ⟨rfl, rfl⟩⟩ h
  · simp only [ordOpt]
    rw [ordCp_err]
    rintro ⟨c, hc⟩
    exact h ⟨some c, .inr ⟨u, c, rfl, rfl, hc⟩⟩

theorem ordAll_ok : ∀ {vs : List CodePt}, (∀ v ∈ vs, ∃ c, Denotes v c) →
    ∃ cs, ordAll vs = .ok cs ∧ ∀ c, c ∈ cs ↔ ∃ v ∈ vs, Denotes v c
  | [], _ => ⟨[], rfl, by simp⟩
  | v :: vs, h => by
    obtain ⟨c, hc⟩ := h v (by simp)
    obtain ⟨cs, h1, h2⟩ := ordAll_ok (vs := vs) (fun v hv => h v (by simp [hv]))
    refine ⟨c :: cs, by simp [ordAll, ordCp_iff.2 hc, h1], ?_⟩
    intro d
    simp only [List.mem_cons, h2, exists_eq_or_imp]
    refine or_congr ⟨?_, fun hd => denotes_inj hd hc⟩ Iff.rfl
    rintro rfl
    exact hc

theorem ordAll_err : ∀ {vs : List CodePt}, ¬ (∀ v ∈ vs, ∃ c, Denotes v c) → ordAll vs = .error .type
  | [], h => absurd (by simp) h
  | v :: vs, h => by
    by_cases hv : ∃ c, Denotes v c
    · obtain ⟨c, hc⟩ := hv
      simp only [ordAll, ordCp_iff.2 hc]
      rw [ordAll_err (vs := vs) (fun hvs => h (by
        intro u hu
        rcases List.mem_cons.1 hu with rfl | hu
        · exact ⟨c, hc⟩
        · exact hvs u hu))]
    · simp [ordAll, ordCp_err hv]

/-- `SignOf` for a list of entries -/
def signIn (es : List (CodePt × Option CodePt)) (c : Nat) (f : Option Nat) : Prop :=
  ∃ before k v after, es = before ++ (k, v) :: after ∧ Denotes k c ∧ DenotesSign v f ∧ ∀ e ∈ after, ¬ Denotes e.1 c

theorem signIn_cons {k : CodePt} {v : Option CodePt} {es : List (CodePt × Option CodePt)} {c : Nat} {f : Option Nat} :
    signIn ((k, v) :: es) c f ↔ signIn es c f ∨ (Denotes k c ∧ DenotesSign v f ∧ ∀ e ∈ es, ¬ Denotes e.1 c) := by
  constructor
  · rintro ⟨before, k', v', after, h1, h2, h3, h4⟩
    rcases before with _ | ⟨b, before⟩
    · simp only [List.nil_append, List.cons.injEq, Prod.mk.injEq] at h1
      obtain ⟨⟨rfl, rfl⟩, rfl⟩ := h1
      exact .inr ⟨h2, h3, h4⟩
    · simp only [List.cons_append, List.cons.injEq] at h1
      exact .inl ⟨before, k', v', after, h1.2, h2, h3, h4⟩
  · rintro (⟨before, k', v', after, h1, h2⟩ | ⟨h1, h2, h3⟩)
    · exact ⟨(k, v) :: before, k', v', after, by rw [h1]; rfl, h2⟩
    · exact ⟨[], k, v, es, rfl, h1, h2, h3⟩

theorem signIn_mem {es : List (CodePt × Option CodePt)} {c : Nat} {f : Option Nat} (h : signIn es c f) : ∃ e ∈ es, Denotes e.1 c := by
  obtain ⟨before, k, v, after, h1, h2, _⟩ := h
  exact ⟨(k, v), by rw [h1]; simp, h2⟩

theorem ordDict_ok : ∀ {es : List (CodePt × Option CodePt)} (d : Dict Nat (Option Nat)), (Dict.keys d).Nodup →
    (∀ e ∈ es, (∃ c, Denotes e.1 c) ∧ ∃ f, DenotesSign e.2 f) →
    ∃ d', ordDict d es = .ok d' ∧ (Dict.keys d').Nodup ∧
      ∀ c f, Dict.get? d' c = some f ↔ signIn es c f ∨ ((∀ e ∈ es, ¬ Denotes e.1 c) ∧ Dict.get? d c = some f)
  | [], d, hd, _ => ⟨d, rfl, hd, by simp [signIn]⟩
  | (k, v) :: es, d, hd, h => by
    obtain ⟨⟨k', hk⟩, f', hf⟩ := h (k, v) (by simp)
    obtain ⟨d', h1, h2, h3⟩ := ordDict_ok (es := es) (Dict.set d k' f') (Dict.nodup_keys_set hd _ _) (fun e he => h e (by simp [he]))
    refine ⟨d', by simp [ordDict, ordCp_iff.2 hk, ordOpt_iff.2 hf, h1], h2, ?_⟩
    intro c f
    rw [h3, signIn_cons, Dict.get?_set, or_assoc]
    refine or_congr Iff.rfl ?_
    by_cases hc : k' = c
    · subst hc
      simp only [if_true, Option.some.injEq, List.forall_mem_cons, hk, not_true, false_and, or_false, true_and]
      constructor
      · rintro ⟨h4, rfl⟩
        exact ⟨hf, h4⟩
      · rintro ⟨h4, h5⟩
        refine ⟨h5, ?_⟩
        have a := ordOpt_iff.2 h4
        rw [ordOpt_iff.2 hf] at a
        exact Except.ok.inj a
    · have hn : ¬ Denotes k c := fun h => hc (denotes_inj hk h)
      simp only [if_neg hc, List.forall_mem_cons, hn, false_and, false_or, not_false_eq_true, true_and]

theorem ordDict_err : ∀ {es : List (CodePt × Option CodePt)} (d : Dict Nat (Option Nat)),
    ¬ (∀ e ∈ es, (∃ c, Denotes e.1 c) ∧ ∃ f, DenotesSign e.2 f) → ordDict d es = .error .type
  | [], _, h => absurd (by simp) h
  | (k, v) :: es, d, h => by
    by_cases hk : ∃ c, Denotes k c
    · obtain ⟨k', hk'⟩ := hk
      by_cases hv : ∃ f, DenotesSign v f
      · obtain ⟨f', hf⟩ := hv
        simp only [ordDict, ordCp_iff.2 hk', ordOpt_iff.2 hf]
        exact ordDict_err _ (fun hes => h (by
          intro u hu
          rcases List.mem_cons.1 hu with rfl | hu
          · exact ⟨⟨k', hk'⟩, f', hf⟩
          · exact hes u hu))
      · simp [ordDict, ordCp_iff.2 hk', ordOpt_err hv]
    · simp [ordDict, ordCp_err hk]

theorem values_nodup {d : Dict Nat (Option Nat)} (hn : (Dict.keys d).Nodup) :
    (d.length = (Dict.values d).dedup.length) ↔ ∀ v v' f, Dict.get? d v = some f → Dict.get? d v' = some f → v = v' := by
  have hlen : d.length = (Dict.values d).length := by simp [Dict.values]
  have h1 : (d.length = (Dict.values d).dedup.length) ↔ (Dict.values d).Nodup := by
    rw [hlen]
    constructor
    · intro h
      rw [← (List.dedup_sublist (Dict.values d)).eq_of_length h.symm]
      exact List.nodup_dedup _
    · intro h
      rw [List.dedup_eq_self.2 h]
  rw [h1]
  constructor
  · intro h v v' f e1 e2
    have := List.inj_on_of_nodup_map h (Dict.mem_of_get? e1) (Dict.mem_of_get? e2) rfl
    exact congrArg Prod.fst this
  · intro h
    refine List.Nodup.map_on ?_ (List.Nodup.of_map _ hn)
    rintro ⟨v, f⟩ hm ⟨v', f'⟩ hm' (rfl : f = f')
    rw [h v v' f (Dict.get?_of_mem hn hm) (Dict.get?_of_mem hn hm')]

open Classical in
/-- what is built, and when -/
theorem build_cases (x : AbArgs) (hp : ProperArgs x) : ∃ (a : Abugida), (Dict.keys a.forms).Nodup ∧
    (∀ c, c ∈ a.consonants ↔ IsCons x c) ∧ (∀ c f, Dict.get? a.forms c = some f ↔ SignOf x c f) ∧ Denotes x.implVowel a.implVowel ∧
    Denotes x.virama a.virama ∧
    x.build = if x.consSet = true ∧ (∀ v v' f, SignOf x v f → SignOf x v' f → v = v') ∧ (∀ c f, SignOf x c f → ¬ IsCons x c) then .ok a
      else .error .assertion := by
  obtain ⟨p1, p2, ⟨i, p3⟩, ⟨w, p4⟩, p5⟩ := hp
  obtain ⟨d, h1, h2, h3⟩ := ordDict_ok (es := x.vowels) [] (by simp [Dict.keys]) p1
  have h3' : ∀ c f, Dict.get? d c = some f ↔ SignOf x c f := by
    intro c f
    rw [h3]
    simp [Dict.get?, SignOf, signIn]
  obtain ⟨cs, h4, h5⟩ := ordAll_ok p2
  obtain ⟨ss, h6, _⟩ := ordAll_ok p5
  refine ⟨⟨cs, d, i, w⟩, h2, h5, h3', p3, p4, ?_⟩
  simp only [AbArgs.build, h1, h4, ordCp_iff.2 p3, ordCp_iff.2 p4, h6]
  have e1 : (d.length = (Dict.values d).dedup.length) ↔ ∀ v v' f, SignOf x v f → SignOf x v' f → v = v' := by
    rw [values_nodup h2]
    simp only [h3']
  have e2 : ((Dict.keys d).any fun c => cs.contains c) = true ↔ ¬ ∀ c f, SignOf x c f → ¬ IsCons x c := by
    simp only [List.any_eq_true, List.contains_iff_mem, h5, not_forall, not_not]
    constructor
    · rintro ⟨c, hc, hx⟩
      rw [← Dict.isSome_get?_iff, Option.isSome_iff_exists] at hc
      obtain ⟨f, hf⟩ := hc
      exact ⟨c, f, (h3' c f).1 hf, hx⟩
    · rintro ⟨c, f, hf, hx⟩
      refine ⟨c, ?_, hx⟩
      rw [← Dict.isSome_get?_iff, (h3' c f).2 hf]
      rfl
  by_cases c1 : d.length = (Dict.values d).dedup.length
  · rw [if_neg (by simpa using c1)]
    cases hs : x.consSet with
    | false => simp
    | true =>
      simp only [Bool.not_true, Bool.false_eq_true, if_false, true_and]
      by_cases c2 : ((Dict.keys d).any fun c => cs.contains c) = true
      · rw [if_pos c2, if_neg]
        exact fun h => e2.1 c2 h.2
      · rw [if_neg c2, if_pos]
        exact ⟨e1.1 c1, not_not.1 (fun h => c2 (e2.2 h))⟩
  · rw [if_pos (by simpa using c1), if_neg]
    exact fun h => c1 (e1.2 h.2.1)

/-- C123: a language can be built if and only if each code point is a number or a string of one character, the consonants are a set, different vowels
have different signs, and no vowel is a consonant. -/
theorem C123_accepts (x : AbArgs) : (∃ a, x.build = .ok a) ↔ ProperArgs x ∧ x.consSet = true ∧
    (∀ v v' f, SignOf x v f → SignOf x v' f → v = v') ∧ ∀ c f, SignOf x c f → ¬ IsCons x c := by
  constructor
  · rintro ⟨a, h⟩
    have hp : ProperArgs x := by
      simp only [AbArgs.build] at h
      refine ⟨?_, ?_, ?_, ?_, ?_⟩
      · by_contra hn
        rw [ordDict_err _ hn] at h
        cases h
      · by_contra hn
        rw [ordAll_err hn] at h
        split at h <;> cases h
      all_goals
        split at h
        · cases h
        split at h
        · cases h
        split at h
        · cases h
        split at h
        · cases h
        split at h
        · cases h
        split at h
        · cases h
        rename_i hi
        split at h
        · cases h
        rename_i hv
        split at h
        · cases h
        rename_i hs
      · exact ⟨_, ordCp_iff.1 hi⟩
      · exact ⟨_, ordCp_iff.1 hv⟩
      · by_contra hn
        rw [ordAll_err hn] at hs
        cases hs
    refine ⟨hp, ?_⟩
    obtain ⟨a', _, _, _, _, _, hb⟩ := build_cases x hp
    rw [hb] at h
    split at h
    · assumption
    · cases h
  · rintro ⟨hp, h⟩
    obtain ⟨a, _, _, _, _, _, hb⟩ := build_cases x hp
    exact ⟨a, by rw [hb, if_pos h]⟩

/-- C123: proper arguments that do not fit together are refused with AssertionError, and nothing else is. -/
theorem C123_refuses (x : AbArgs) (hp : ProperArgs x) : x.build = .error .assertion ↔ x.consSet = false ∨
    (∃ v v' f, v ≠ v' ∧ SignOf x v f ∧ SignOf x v' f) ∨ ∃ c f, SignOf x c f ∧ IsCons x c := by
  obtain ⟨a, _, _, _, _, _, hb⟩ := build_cases x hp
  rw [hb]
  split
  · rename_i h
    simp only [reduceCtorEq, false_iff, h.1, not_or]
    refine ⟨by simp, ?_, ?_⟩
    · rintro ⟨v, v', f, hne, h1, h2⟩
      exact hne (h.2.1 v v' f h1 h2)
    · rintro ⟨c, f, h1, h2⟩
      exact h.2.2 c f h1 h2
  · rename_i h
    simp only [true_iff]
    by_contra hn
    simp only [not_or, not_exists, not_and, Bool.not_eq_false] at hn
    refine h ⟨hn.1, fun v v' f h1 h2 => ?_, fun c f h1 h2 => hn.2.2 c f h1 h2⟩
    by_contra hne
    exact hn.2.1 v v' f hne h1 h2

/-- tables and the vowels and signs -/
theorem build_tables {x : AbArgs} {a : Abugida} (h : x.build = .ok a) : (Dict.keys a.forms).Nodup ∧
    (∀ c, a.isCons c = true ↔ IsCons x c) ∧ (∀ c f, Dict.get? a.forms c = some f ↔ SignOf x c f) ∧ Denotes x.implVowel a.implVowel ∧
    Denotes x.virama a.virama ∧ (∀ v v' f, SignOf x v f → SignOf x v' f → v = v') ∧ ∀ c f, SignOf x c f → ¬ IsCons x c := by
  obtain ⟨hp, h1, h2, h3⟩ := (C123_accepts x).1 ⟨a, h⟩
  obtain ⟨a', g1, g2, g3, g4, g5, hb⟩ := build_cases x hp
  rw [hb, if_pos ⟨h1, h2, h3⟩] at h
  cases h
  exact ⟨g1, fun c => by rw [Abugida.isCons, List.contains_iff_mem, g2], g3, g4, g5, h2, h3⟩

/-- C123: the tables of a language say what was given.  `is_consonant` and `is_vowel` hold of the given letters, `form_to_vowel` and `vowel_to_form` are
inverse to each other, and a sign is recognised unless it is U+0000. -/
theorem C123_tables {x : AbArgs} {a : Abugida} (h : x.build = .ok a) :
    (∀ c, a.isCons c = true ↔ IsCons x c) ∧ (∀ c, a.isVowel c = true ↔ ∃ f, SignOf x c f) ∧
    (∀ c f, a.formToVowel f = some c ↔ SignOf x c (some f)) ∧ (∀ c f, a.formOf c = [f] ↔ SignOf x c (some f)) ∧
    (∀ f, a.isForm f = true ↔ f ≠ 0 ∧ ∃ c, SignOf x c (some f)) ∧ Denotes x.implVowel a.implVowel ∧ Denotes x.virama a.virama := by
  obtain ⟨g1, g2, g3, g4, g5, g6, g7⟩ := build_tables h
  have hmem : ∀ c f, (c, f) ∈ a.forms ↔ SignOf x c f := fun c f => by rw [← g3, Dict.get?_eq_some_iff g1]
  refine ⟨g2, ?_, ?_, ?_, ?_, g4, g5⟩
  · intro c
    rw [Abugida.isVowel, List.contains_iff_mem, List.mem_map]
    constructor
    · rintro ⟨⟨c', f⟩, hm, rfl⟩
      exact ⟨f, (hmem _ _).1 hm⟩
    · rintro ⟨f, hf⟩
      exact ⟨(c, f), (hmem _ _).2 hf, rfl⟩
  · intro c f
    rw [Abugida.formToVowel, Option.map_eq_some_iff]
    constructor
    · rintro ⟨⟨c', f'⟩, hm, rfl⟩
      have e : f' = some f := by simpa using List.find?_some hm
      subst e
      exact (hmem _ _).1 (List.mem_of_find?_eq_some hm)
    · intro hs
      cases hf : a.forms.find? fun p => p.2 == some f with
      | none =>
        have := List.find?_eq_none.1 hf (c, some f) ((hmem _ _).2 hs)
        simp at this
      | some p =>
        obtain ⟨c', f'⟩ := p
        have e : f' = some f := by simpa using List.find?_some hf
        subst e
        exact ⟨_, rfl, g6 _ _ _ ((hmem _ _).1 (List.mem_of_find?_eq_some hf)) hs⟩
  · intro c f
    rw [← g3]
    have hfind : a.forms.find? (fun p => p.1 == c) = (Dict.get? a.forms c).map fun f => (c, f) := by
      clear g1 g2 g3 g4 g5 hmem h
      generalize a.forms = d
      induction d with
      | nil => rfl
      | cons p d ih =>
        obtain ⟨k, v⟩ := p
        by_cases hk : k = c
        · subst hk; simp [Dict.get?]
        · rw [List.find?_cons_of_neg (by simpa using hk), ih, Dict.get?, if_neg hk]
    rw [Abugida.formOf, hfind]
    rcases Dict.get? a.forms c with _ | _ | f' <;> simp
  · intro f
    simp only [Abugida.isForm, Bool.and_eq_true, bne_iff_ne, List.contains_iff_mem, List.mem_map]
    refine and_congr Iff.rfl ⟨?_, ?_⟩
    · rintro ⟨⟨c, _⟩, hm, rfl⟩
      exact ⟨c, (hmem _ _).1 hm⟩
    · rintro ⟨c, hc⟩
      exact ⟨_, (hmem _ _).2 hc, rfl⟩

/-- C123: a code point may be written as a number or as a character, and in any mixture; what is built is the same. -/
theorem C123_same {x y : AbArgs} {a b : Abugida} (hx : x.build = .ok a) (hy : y.build = .ok b)
    (hv : List.Forall₂ (fun e e' => (∀ c, Denotes e.1 c ↔ Denotes e'.1 c) ∧ ∀ f, DenotesSign e.2 f ↔ DenotesSign e'.2 f) x.vowels y.vowels)
    (hc : List.Forall₂ (fun v v' => ∀ c, Denotes v c ↔ Denotes v' c) x.consonants y.consonants)
    (hi : ∀ c, Denotes x.implVowel c ↔ Denotes y.implVowel c) (hw : ∀ c, Denotes x.virama c ↔ Denotes y.virama c) : a = b := by
  have e1 : ∀ d, ordDict d x.vowels = ordDict d y.vowels := by
    generalize x.vowels = es at hv
    generalize y.vowels = es' at hv
    induction hv with
    | nil => intro d; rfl
    | @cons e e' _ _ h _ ih =>
      intro d
      obtain ⟨k, v⟩ := e
      obtain ⟨k', v'⟩ := e'
      have a1 : ordCp k = ordCp k' := by
        by_cases hk : ∃ c, Denotes k c
        · obtain ⟨c, hc⟩ := hk
          rw [ordCp_iff.2 hc, ordCp_iff.2 ((h.1 c).1 hc)]
        · rw [ordCp_err hk, ordCp_err (fun ⟨c, hc⟩ => hk ⟨c, (h.1 c).2 hc⟩)]
      have a2 : ordOpt v = ordOpt v' := by
        by_cases hk : ∃ f, DenotesSign v f
        · obtain ⟨f, hf⟩ := hk
          rw [ordOpt_iff.2 hf, ordOpt_iff.2 ((h.2 f).1 hf)]
        · rw [ordOpt_err hk, ordOpt_err (fun ⟨c, hc⟩ => hk ⟨c, (h.2 c).2 hc⟩)]
      simp only [ordDict, a1, a2, ih]
  have e2 : ∀ {u v : CodePt}, (∀ c, Denotes u c ↔ Denotes v c) → ordCp u = ordCp v := by
    intro u v h
    by_cases hk : ∃ c, Denotes u c
    · obtain ⟨c, hc⟩ := hk
      rw [ordCp_iff.2 hc, ordCp_iff.2 ((h c).1 hc)]
    · rw [ordCp_err hk, ordCp_err (fun ⟨c, hc⟩ => hk ⟨c, (h c).2 hc⟩)]
  have e3 : ordAll x.consonants = ordAll y.consonants := by
    generalize x.consonants = es at hc
    generalize y.consonants = es' at hc
    induction hc with
    | nil => rfl
    | cons h _ ih => simp only [ordAll, e2 h, ih]
  have key : ∀ {z : AbArgs} {r : Abugida}, z.build = .ok r → ordDict [] z.vowels = .ok r.forms ∧ ordAll z.consonants = .ok r.consonants ∧
      ordCp z.implVowel = .ok r.implVowel ∧ ordCp z.virama = .ok r.virama := by
    intro z r h
    simp only [AbArgs.build] at h
    split at h
    · cases h
    rename_i h1
    split at h
    · cases h
    rename_i h2
    split at h
    · cases h
    split at h
    · cases h
    split at h
    · cases h
    split at h
    · cases h
    rename_i h3
    split at h
    · cases h
    rename_i h4
    split at h
    · cases h
    cases h
    exact ⟨h1, h2, h3, h4⟩
  obtain ⟨x1, x2, x3, x4⟩ := key hx
  obtain ⟨y1, y2, y3, y4⟩ := key hy
  rw [e1, y1] at x1
  rw [e3, y2] at x2
  rw [e2 hi, y3] at x3
  rw [e2 hw, y4] at x4
  cases a
  cases b
  simp only [Except.ok.injEq] at x1 x2 x3 x4
  subst x1 x2 x3 x4
  rfl

/-- C123: `get_aubugida` knows four names for one language and refuses every other with AssertionError. -/
theorem C123_names (name : Str) : getAbugida name =
    if name ∈ [lit "hin", lit "hindi", lit "devanagari", lit "sanskrit"] then .ok hindi else .error .assertion := by
  have h : hinArgs.build = .ok hindi := by decide +kernel
  simp only [getAbugida, h, List.mem_cons, List.not_mem_nil, or_false]

/-- C123: the command for each of the names, and for other names -/
theorem C123_command (name : Str) (decode : Bool) (text : Str) : scriptMain name decode text =
    if name ∈ [lit "hin", lit "hindi", lit "devanagari", lit "sanskrit"] then (abMain decode text, none) else ([], some .assertion) := by
  rw [scriptMain, C123_names]
  by_cases h : name ∈ [lit "hin", lit "hindi", lit "devanagari", lit "sanskrit"]
  · simp only [if_pos h, abMain]
  · simp only [if_neg h]

/-! ## every writing system -/

theorem lawful_of {x : AbArgs} {a : Abugida} (h : x.build = .ok a) (hs : Separate x) : a.Lawful := by
  obtain ⟨t1, t2, t3, t4, t5, t6, t7⟩ := C123_tables h
  obtain ⟨_, _, _, _, _, u1, u2⟩ := build_tables h
  have nb : ∀ {b : Bool} {P : Prop}, (b = true ↔ P) → ¬ P → b = false := by
    intro b P h1 h2
    cases b with
    | false => rfl
    | true => exact absurd (h1.1 rfl) h2
  have hvir := hs.virama _ t7
  refine ⟨?_, ?_, ?_, ?_, ?_, ?_⟩
  · intro c hc
    rw [t1] at hc
    refine ⟨nb (t2 c) (fun ⟨f, hf⟩ => u2 c f hf hc), nb (t5 c) (fun ⟨_, v, hv⟩ => hs.cons_sign c v hc hv), ?_, ?_, nb (abSpace_iff c) ?_⟩
    · rintro rfl
      exact hvir.1 hc
    · intro e
      exact (hs.other c (.inr e)).1 hc
    · intro e
      exact (hs.other c (.inl e)).1 hc
  · intro c hc
    rw [t2] at hc
    obtain ⟨f, hf⟩ := hc
    refine ⟨nb (t5 c) (fun ⟨_, v, hv⟩ => hs.vowel_sign c f v hf hv), ?_, ?_, nb (abSpace_iff c) ?_⟩
    · rintro rfl
      exact hvir.2.1 f hf
    · intro e
      exact (hs.other c (.inr e)).2.1 f hf
    · intro e
      exact (hs.other c (.inl e)).2.1 f hf
  · intro c hc
    rw [t5] at hc
    obtain ⟨_, v, hv⟩ := hc
    refine ⟨?_, ?_, nb (abSpace_iff c) ?_, v, (t3 v c).2 hv, (t2 v).2 ⟨_, hv⟩, (t4 v c).2 hv⟩
    · rintro rfl
      exact hvir.2.2.1 v hv
    · intro e
      exact (hs.other c (.inr e)).2.2 v hv
    · intro e
      exact (hs.other c (.inl e)).2.2 v hv
  · intro v c hc e
    have : a.formOf v = [c] := by
      rw [Abugida.formOf] at hc ⊢
      split at hc <;> simp_all
    exact (hs.other c (.inr e)).2.2 v ((t4 v c).1 this)
  · exact ⟨nb (abSpace_iff _) hvir.2.2.2.1, hvir.2.2.2.2⟩
  · have hi := hs.inherent _ t6
    refine ⟨(t2 _).2 ⟨_, hi⟩, ?_⟩
    cases hf : a.formOf a.implVowel with
    | nil => rfl
    | cons f r =>
      have : a.formOf a.implVowel = [f] := by
        rw [Abugida.formOf] at hf ⊢
        split at hf <;> simp_all
      have := (t4 _ _).1 this
      have g := (build_tables h).2.2.1
      rw [← g] at this hi
      rw [this] at hi
      cases hi

/-- C69 for every writing system that can be built and whose classes of characters are separate: a line is restored if and only if it has no marker U+E000,
each virama stands after a consonant and before a consonant or the end of a word, and no vowel sign begins a word. -/
theorem C69_any_partial {x : AbArgs} {a : Abugida} (h : x.build = .ok a) (hs : Separate x) (line : Str) :
    a.decode (a.encode line) = line ↔ 0xE000 ∉ line ∧ Everywhere (fun prev c next =>
      (Denotes x.virama c → (∃ p, prev = some p ∧ IsCons x p) ∧ ∀ n, next = some n → IsCons x n ∨ Blank n) ∧
      (c ≠ 0 → (∃ v, SignOf x v (some c)) → ∃ p, prev = some p ∧ ¬ Blank p)) line := by
  obtain ⟨t1, t2, t3, t4, t5, t6, t7⟩ := C123_tables h
  rw [decode_encode_iff (lawful_of h hs), everywhere_iff]
  have hloc : (fun prev c next => (Denotes x.virama c → (∃ p, prev = some p ∧ IsCons x p) ∧ ∀ n, next = some n → IsCons x n ∨ Blank n) ∧
      (c ≠ 0 → (∃ v, SignOf x v (some c)) → ∃ p, prev = some p ∧ ¬ Blank p)) = a.Local := by
    funext prev c next
    apply propext
    have h1 : a.closes next = true ↔ ∀ n, next = some n → IsCons x n ∨ Blank n := by
      cases next with
      | none => simp [Abugida.closes]
      | some n => simp [Abugida.closes, t1, abSpace_iff, or_comm]
    have h2 : abBegin prev = false ↔ ∃ p, prev = some p ∧ ¬ Blank p := by
      cases prev with
      | none => simp [abBegin]
      | some p => simp [abBegin, ← abSpace_iff]
    have h3 : c = a.virama ↔ Denotes x.virama c := ⟨fun e => e ▸ t7, fun e => denotes_inj e t7⟩
    simp only [Abugida.Local, h1, h2, h3, t1, t5, and_imp]
  rw [hloc]
  rfl

/-- C75 for every writing system that can be built and whose classes of characters are separate -/
theorem C75_any_partial {x : AbArgs} {a : Abugida} (h : x.build = .ok a) (hs : Separate x) (line : Str) :
    a.liteDec (a.liteEnc line) = line ↔ Everywhere (fun prev c next =>
      (Denotes x.virama c → (∃ p, prev = some p ∧ IsCons x p) ∧ ∀ n, next = some n → IsCons x n ∨ Blank n) ∧
      (Denotes x.implVowel c → ∀ p, prev = some p → ¬ IsCons x p)) line := by
  obtain ⟨t1, t2, t3, t4, t5, t6, t7⟩ := C123_tables h
  have hfix := liteRT_fix (lawful_of h hs) _ line (Nat.le_refl _) none (Or.inl (by simp))
  rw [Abugida.liteRT] at hfix
  rw [hfix, everywhere_iff]
  have hloc : (fun prev c next => (Denotes x.virama c → (∃ p, prev = some p ∧ IsCons x p) ∧ ∀ n, next = some n → IsCons x n ∨ Blank n) ∧
      (Denotes x.implVowel c → ∀ p, prev = some p → ¬ IsCons x p)) = a.LocalLite := by
    funext prev c next
    apply propext
    have h1 : a.closes next = true ↔ ∀ n, next = some n → IsCons x n ∨ Blank n := by
      cases next with
      | none => simp [Abugida.closes]
      | some n => simp [Abugida.closes, t1, abSpace_iff, or_comm]
    have h3 : c = a.virama ↔ Denotes x.virama c := ⟨fun e => e ▸ t7, fun e => denotes_inj e t7⟩
    have h4 : c = a.implVowel ↔ Denotes x.implVowel c := ⟨fun e => e ▸ t6, fun e => denotes_inj e t6⟩
    have h5 : ∀ p, a.isCons p = false ↔ ¬ IsCons x p := fun p => by rw [← t1]; simp
    simp only [Abugida.LocalLite, h1, h3, h4, h5, t1]
  rw [hloc]

/-- a small writing system: the consonant `k`, the vowels `a` (inherent) and `e` with the sign `3`, the virama `-`; characters and numbers mixed -/
def exScript : AbArgs where
  vowels := [(.str (lit "a"), none), (.int 101, some (.str (lit "3")))]
  consonants := [.str (lit "k")]
  implVowel := .int 97
  virama := .str (lit "-")

example : exScript.build = .ok ⟨[107], [(97, none), (101, some 51)], 97, 45⟩ := by decide
example : (⟨[107], [(97, none), (101, some 51)], 97, 45⟩ : Abugida).encode (lit "k3k-ek-") = [107, 101, 107, 101, 0xE000, 107] := by decide
theorem exScript_sign (c : Nat) (f : Option Nat) : SignOf exScript c f ↔ (c = 97 ∧ f = none) ∨ (c = 101 ∧ f = some 51) := by
  have h : exScript.build = .ok ⟨[107], [(97, none), (101, some 51)], 97, 45⟩ := by decide
  rw [← (build_tables h).2.2.1]
  simp only [Dict.get?]
  constructor
  · split
    · rename_i e; intro h; exact .inl ⟨e.symm, by simpa [eq_comm] using h⟩
    · split
      · rename_i e; intro h; exact .inr ⟨e.symm, by simpa [eq_comm] using h⟩
      · simp
  · rintro (⟨rfl, rfl⟩ | ⟨rfl, rfl⟩) <;> simp

/-- its classes are separate -/
example : Separate exScript := by
  have hc : ∀ c, IsCons exScript c ↔ c = 107 := by
    intro c
    simp [IsCons, exScript, Denotes, show lit "k" = [107] by decide, eq_comm]
  refine ⟨?_, ?_, ?_, ?_, ?_⟩
  · intro c v
    rw [hc, exScript_sign]
    rintro rfl
    simp
  · intro c f v
    rw [exScript_sign, exScript_sign]
    rintro (⟨rfl, _⟩ | ⟨rfl, _⟩) <;> simp
  · intro c h
    have : c = 45 := by simpa [exScript, Denotes, show lit "-" = [45] by decide, eq_comm] using h
    subst this
    simp [hc, exScript_sign, Blank]
  · intro c h
    have : c = 32 ∨ c = 9 ∨ c = 10 ∨ c = 0xE000 := by unfold Blank at h; omega
    rcases this with rfl | rfl | rfl | rfl <;> simp [hc, exScript_sign]
  · intro c h
    have : c = 97 := by simpa [exScript, Denotes, eq_comm] using h
    subst this
    simp [exScript_sign]

/-- C69 needs separate classes, which the constructor does not check: with a vowel sign that is a consonant too, a line of two consonants is not restored. -/
theorem C69_overlap_refuted : ∃ (x : AbArgs) (a : Abugida), x.build = .ok a ∧ a.virama ∉ lit "kk" ∧
    a.decode (a.encode (lit "kk")) = lit "k-k" :=
  ⟨{ exScript with vowels := [(.str (lit "a"), none), (.str (lit "e"), some (.str (lit "k")))] },
    ⟨[107], [(97, none), (101, some 107)], 97, 45⟩, by decide, by decide, by decide +kernel⟩

/-- the consonants as a list, as the docstring of `AbugidaLang` says, are refused -/
example : { exScript with consSet := false }.build = .error .assertion := by decide
/-- two vowels without sign, a vowel that is a consonant, a string of two characters -/
example : { exScript with vowels := [(.str (lit "a"), none), (.int 101, none)] }.build = .error .assertion := by decide
example : { exScript with consonants := [.int 97] }.build = .error .assertion := by decide
example : { exScript with virama := .str (lit "--") }.build = .error .type := by decide
/-- the same vowel twice: the last entry counts -/
example : { exScript with vowels := [(.str (lit "a"), none), (.int 101, some (.int 51)), (.str (lit "e"), some (.int 52))] }.build =
    .ok ⟨[107], [(97, none), (101, some 52)], 97, 45⟩ := by decide

end Verif
