import Verif.Lemmas.Bytes
import Verif.Lemmas.Byte
import Verif.Lemmas.BpeText
import Verif.Lemmas.Cli
import Verif.Props.Main
/-! # No surrogates: what `nlcodec` writes for texts of scalar values consists of scalar values -/

namespace Verif
open Spec

/-- a text that UTF-8 can encode -/
def Sc (s : Str) : Prop := ∀ c ∈ s, Scalar c

theorem Sc.nil : Sc [] := by simp [Sc]
theorem Sc.append {s t : Str} (h : Sc s) (h' : Sc t) : Sc (s ++ t) := fun c hc => (List.mem_append.1 hc).elim (h c) (h' c)
theorem Sc.cons {c : Nat} {t : Str} (h : Scalar c) (h' : Sc t) : Sc (c :: t) := fun d hd => (List.mem_cons.1 hd).elim (fun e => e ▸ h) (h' d)
theorem Sc.of_append_left {s t : Str} (h : Sc (s ++ t)) : Sc s := fun c hc => h c (List.mem_append_left _ hc)
theorem Sc.of_append_right {s t : Str} (h : Sc (s ++ t)) : Sc t := fun c hc => h c (List.mem_append_right _ hc)
theorem Scalar.ascii {c : Nat} (h : c < 128) : Scalar c := ⟨by omega, by omega⟩
theorem Sc.sub {s t : Str} (h : Sc t) (hs : ∀ c ∈ s, c ∈ t) : Sc s := fun c hc => h c (hs c hc)
theorem Sc.ascii {s : Str} (h : ∀ c ∈ s, c < 128) : Sc s := fun c hc => Scalar.ascii (h c hc)

theorem Sc.strip {s : Str} (h : Sc s) : Sc (strip s) := by
  obtain ⟨g, r, e, _⟩ := strip_decomp s
  rw [e] at h
  exact h.of_append_left.of_append_right

theorem Sc.rstripP {p : Nat → Bool} {s : Str} (h : Sc s) : Sc (rstripP p s) := by
  obtain ⟨g, e, _⟩ := rstripP_suffix p s
  rw [e] at h
  exact h.of_append_left

theorem Sc.split {s w : Str} (h : Sc s) (hw : w ∈ split s) : Sc w := h.sub fun _ hc => mem_of_mem_split hw hc
theorem Sc.splitOn {p : Nat → Bool} {s w : Str} (h : Sc s) (hw : w ∈ splitOn p s) : Sc w := h.sub fun _ hc => mem_of_mem_splitOn hw hc

theorem Sc.join {sep : Str} {ws : List Str} (h : Sc sep) (hw : ∀ w ∈ ws, Sc w) : Sc (join sep ws) := by
  intro c hc
  rcases mem_join hc with hc | ⟨w, hm, hc⟩
  · exact h c hc
  · exact hw w hm c hc

theorem Sc.flatten {ws : List Str} (hw : ∀ w ∈ ws, Sc w) : Sc ws.flatten := by
  intro c hc
  obtain ⟨w, hm, hc⟩ := List.mem_flatten.1 hc
  exact hw w hm c hc

theorem Sc.replaceCh {a b : Nat} {s : Str} (hb : Scalar b) (h : Sc s) : Sc (replaceCh a b s) := by
  intro c hc
  obtain ⟨d, hd, rfl⟩ := List.mem_map.1 hc
  split
  · exact hb
  · exact h d hd

theorem Sc.natStr (n : Nat) : Sc (natStr n) := Sc.ascii fun c hc => by have := natStr_digits n c hc; omega
theorem Sc.intStr (n : Int) : Sc (intStr n) := Sc.ascii fun c hc => by have := intStr_chars n c hc; omega

theorem Scalar.SP : Scalar SP := ⟨by decide, by decide⟩

theorem Sc.univNewlines {s : Str} (h : Sc s) : Sc (univNewlines s) := by
  induction s using univNewlines.induct with
  | case1 r ih => rw [Verif.univNewlines]; exact Sc.cons (Scalar.ascii (by omega)) (ih fun c hc => h c (by simp [hc]))
  | case2 r hr ih => rw [Verif.univNewlines.eq_2 _ hr]; exact Sc.cons (Scalar.ascii (by omega)) (ih fun c hc => h c (by simp [hc]))
  | case3 c r h1 h2 ih => rw [Verif.univNewlines.eq_3 _ _ h1 h2]; exact Sc.cons (h c (by simp)) (ih fun c hc => h c (by simp [hc]))
  | case4 => exact Sc.nil

theorem mem_keepLines : ∀ (s : Str) {l : Str} {c : Nat}, l ∈ keepLines s → c ∈ l → c ∈ s
  | [], l, c, hl, _ => by simp [keepLines] at hl
  | d :: r, l, c, hl, hc => by
    rw [keepLines] at hl
    split at hl
    · rcases List.mem_cons.1 hl with rfl | hl
      · rename_i e; rw [List.mem_singleton] at hc; simp [hc, e]
      · exact List.mem_cons_of_mem _ (mem_keepLines r hl hc)
    · cases hk : keepLines r with
      | nil =>
        rw [hk, consHead, List.mem_singleton] at hl
        subst hl
        rw [List.mem_singleton] at hc
        simp [hc]
      | cons w ws =>
        rw [hk, consHead] at hl
        rcases List.mem_cons.1 hl with rfl | hl
        · rcases List.mem_cons.1 hc with rfl | hc
          · simp
          · exact List.mem_cons_of_mem _ (mem_keepLines r (l := w) (by rw [hk]; simp) hc)
        · exact List.mem_cons_of_mem _ (mem_keepLines r (l := l) (by rw [hk]; simp [hl]) hc)

theorem Sc.inpLines {s l : Str} (h : Sc s) (hl : l ∈ inpLines s) : Sc l := h.univNewlines.sub fun _ hc => mem_keepLines _ hl hc

/-! ## tables -/

/-- every name can be encoded -/
def ScTable (v : List Ty) : Prop := ∀ t ∈ v, Sc t.name

theorem ScTable.append {v w : List Ty} (h : ScTable v) (h' : ScTable w) : ScTable (v ++ w) := fun t ht => (List.mem_append.1 ht).elim (h t) (h' t)

/-- every key can be encoded -/
def ScDict (d : Dict Str Int) : Prop := ∀ w ∈ Dict.keys d, Sc w

theorem ScDict.set {d : Dict Str Int} (h : ScDict d) {k : Str} (hk : Sc k) (v : Int) : ScDict (Dict.set d k v) := by
  intro w hw
  rw [Dict.keys_set] at hw
  split at hw
  · exact h w hw
  · rcases List.mem_append.1 hw with hw | hw
    · exact h w hw
    · rw [List.mem_singleton.1 hw]; exact hk

theorem ScTable.reserved (tf : Dict Str Int) (u : Int) (lc : Option Int) : ScTable (updateReserved tf u lc) := by
  intro t ht
  simp only [updateReserved, List.mem_map] at ht
  obtain ⟨r, hr, rfl⟩ := ht
  have hn : Sc r.name := by
    have : ∀ r ∈ reservedTypes, ∀ c ∈ r.name, Scalar c := by unfold Scalar; decide
    exact this r hr
  split <;> exact hn

theorem ScTable.init {A : Acc} {level : Int} {tf : Dict Str Int} {cov : Option A.F} {lc : Option Int} {mf vs : Int} {vocab : List Ty}
    (hnd : (Dict.keys tf).Nodup) (h : getInitVocab A level tf cov lc mf vs = .ok vocab) (hs : ScDict tf) : ScTable vocab := by
  obtain ⟨pre, cut, kept, rest, e1, _, e2, e3, rfl⟩ := getInitVocab_ok hnd h
  refine (ScTable.reserved _ _ _).append fun t ht => ?_
  simp only [List.mem_map] at ht
  obtain ⟨⟨p, i⟩, hp, rfl⟩ := ht
  have hp' : p ∈ kept := by
    have := List.mem_zipIdx' hp
    rw [this.2]; exact List.getElem_mem _
  have h1 : p ∈ sortByFreq (popReserved tf) := by rw [e1, e3]; simp [hp']
  have h2 : p ∈ popReserved tf := (List.perm_insertionSort _ _).mem_iff.1 h1
  exact hs p.1 (List.mem_map.2 ⟨p, (popReserved_sublist tf).subset h2, rfl⟩)

theorem ScDict.count {d : Dict Str Int} (h : ScDict d) {xs : List Str} (hx : ∀ x ∈ xs, Sc x) : ScDict (Dict.count d xs) := by
  intro w hw
  rcases (Dict.mem_keys_count d xs w).1 hw with hw | hw
  · exact h w hw
  · exact hx w hw

theorem ScDict.terms (k : Kind) : ∀ (data : List Str) (d : Dict Str Int), (∀ l ∈ data, Sc l) → ScDict d →
    ScDict (data.foldl (fun d line => Dict.count d (learnPieces k line)) d)
  | [], d, _, h => h
  | l :: data, d, hd, h => by
    refine ScDict.terms k data _ (fun l hl => hd l (by simp [hl])) (h.count fun x hx => ?_)
    have hl := hd l (by simp)
    cases k with
    | char =>
      obtain ⟨c, hc, rfl⟩ := List.mem_map.1 hx
      have : Sc (join [SP] (split (strip l))) := Sc.join (Sc.cons Scalar.SP Sc.nil) fun w hw => hl.strip.split hw
      exact Sc.cons (this c hc) Sc.nil
    | clasz => rw [List.mem_singleton.1 hx]; exact hl.strip.strip
    | word => exact hl.strip.split hx
    | bpe => exact hl.strip.split hx
    | byte => exact hl.strip.split hx

theorem ScDict.termFrequencies (k : Kind) {data : List Str} (h : ∀ l ∈ data, Sc l) : ScDict (termFrequencies k data).1 :=
  ScDict.terms k data [] h (by simp [ScDict, Dict.keys])

theorem ScDict.freqRows : ∀ (lines : List Str) (d d' : Dict Str Int), (∀ l ∈ lines, Sc l) → ScDict d → readFreqRows d lines = .ok d' → ScDict d'
  | [], d, d', _, h, e => by cases e; exact h
  | l :: lines, d, d', hl, h, e => by
    simp only [readFreqRows] at e
    split at e
    · rename_i t f heq
      split at e
      · cases e
      · refine ScDict.freqRows lines _ _ (fun l h => hl l (by simp [h])) (h.set ?_ _) e
        have : t ∈ splitOn (· == 9) (rstripP (· == 10) l) := by rw [heq]; simp
        exact (((hl l (by simp)).rstripP).splitOn this).strip
    · cases e

theorem ScDict.readTermFreqs {J : Json} {lines : List Str} {tf : Dict Str Int} {n : Int} (hl : ∀ l ∈ lines, Sc l)
    (h : readTermFreqs J lines = .ok (tf, n)) : ScDict tf := by
  have h0 : ScDict [] := by simp [ScDict, Dict.keys]
  cases lines with
  | nil => cases h; exact h0
  | cons l0 ls =>
    simp only [Verif.readTermFreqs] at h
    split at h
    · split at h
      · cases h
      · rename_i d hr
        cases h
        exact ScDict.freqRows _ _ _ (fun l hl' => hl l (by simp [hl'])) h0 hr
    · split at h
      · cases h
      · rename_i d hr
        cases h
        exact ScDict.freqRows _ _ _ hl h0 hr

theorem ScTable.clasz {tf : Dict Str Int} (h : ScDict tf) : ScTable (classInitVocab tf) := by
  intro t ht
  simp only [classInitVocab, List.mem_map] at ht
  obtain ⟨⟨p, i⟩, hp, rfl⟩ := ht
  have hp' : p ∈ tf.insertionSort (fun a b => a.1 ≤ b.1) := by
    have := List.mem_zipIdx' hp
    rw [this.2]; exact List.getElem_mem _
  exact h p.1 (List.mem_map.2 ⟨p, (List.perm_insertionSort _ _).mem_iff.1 hp', rfl⟩)

theorem ScTable.byte : ScTable byteVocab := by
  intro t ht
  have hn : t.name ∈ byteVocab.map (·.name) := List.mem_map.2 ⟨t, ht, rfl⟩
  rw [byteVocab_names] at hn
  rcases List.mem_append.1 hn with hn | hn
  · obtain ⟨b, hb, e⟩ := List.mem_map.1 hn
    rw [← e]
    have : ∀ b < 256, ∀ c ∈ codeToStr b, c < 128 := by decide +kernel
    exact Sc.ascii (this b (List.mem_range.1 hb))
  · refine Sc.ascii ?_
    rcases List.mem_cons.1 hn with e | hn
    · rw [e]; decide
    · rw [List.mem_singleton.1 hn]; decide

theorem ScTable.step {ord : List Nat → List Nat} {minEv level : Int} {S S' : LState} {b : Bool} (h : learnStep ord minEv level S = .ok (S', b))
    (hs : ScTable S.vocab) : ScTable S'.vocab := by
  simp only [learnStep] at h
  split at h
  · cases h
  split at h
  · cases h; exact hs
  split at h
  · rename_i ta tb ha hb
    split at h
    · cases h
    split at h
    · cases h
    split at h
    · cases h
    split at h
    · cases h
    split at h
    · cases h
    cases h
    refine hs.append fun t ht => ?_
    rw [List.mem_singleton.1 ht]
    exact (hs _ (List.mem_of_getElem? ha)).append (hs _ (List.mem_of_getElem? hb))
  · cases h

theorem ScTable.loop {ord : Nat → List Nat → List Nat} {minEv level : Int} : ∀ (n : Nat) {S S' : LState}, learnLoop ord minEv level n S = .ok S' →
    ScTable S.vocab → ScTable S'.vocab
  | 0, S, S', h, hs => by cases h; exact hs
  | n + 1, S, S', h, hs => by
    simp only [learnLoop] at h
    split at h
    · cases h
    · rename_i S1 h1; exact ScTable.loop n h (hs.step h1)
    · rename_i S1 h1; cases h; exact hs.step h1

theorem ScTable.learnCodesOf {ord : Nat → List Nat → List Nat} {tf : Dict Str Int} {v v' : List Ty} {vs minEv : Int}
    (h : learnCodesOf ord tf v vs minEv = .ok v') (hs : ScTable v) : ScTable v' := by
  simp only [Verif.learnCodesOf] at h
  split at h
  · cases h
  split at h
  · cases h
  split at h
  · cases h
  simp only [learnCodes] at h
  split at h
  · cases h
  split at h
  · cases h
  rename_i hl
  cases h
  exact ScTable.loop _ hl hs

theorem charFreqs_keys : ∀ (tf d : Dict Str Int), ScDict tf → ScDict d → (Dict.keys d).Nodup →
    ScDict (tf.foldl (fun d p => p.1.foldl (fun d c => Dict.incr d [c] p.2) d) d) ∧
    (Dict.keys (tf.foldl (fun d p => p.1.foldl (fun d c => Dict.incr d [c] p.2) d) d)).Nodup
  | [], d, _, h, hn => ⟨h, hn⟩
  | p :: tf, d, ht, h, hn => by
    have inner : ∀ (w : Str) (d : Dict Str Int), Sc w → ScDict d → (Dict.keys d).Nodup →
        ScDict (w.foldl (fun d c => Dict.incr d [c] p.2) d) ∧ (Dict.keys (w.foldl (fun d c => Dict.incr d [c] p.2) d)).Nodup := by
      intro w
      induction w with
      | nil => intro d _ h hn; exact ⟨h, hn⟩
      | cons c w ih =>
        intro d hw h hn
        refine ih _ (fun e he => hw e (by simp [he])) (fun x hx => ?_) (Dict.nodup_keys_incr hn _ _)
        rcases (Dict.mem_keys_incr d [c] p.2 x).1 hx with hx | rfl
        · exact h x hx
        · exact Sc.cons (hw c (by simp)) Sc.nil
    obtain ⟨a, b⟩ := inner p.1 d (ht p.1 (by simp [Dict.keys])) h hn
    exact charFreqs_keys tf _ (fun w hw => ht w (by simp only [Dict.keys, List.map_cons, List.mem_cons]; exact Or.inr hw)) a b

theorem preparedFreqs_keys : ∀ (tf d : Dict Str Int), ScDict tf → ScDict d → ScDict (tf.foldl (fun d p => Dict.set d (prepareWord p.1) p.2) d)
  | [], d, _, h => h
  | p :: tf, d, ht, h => by
    refine preparedFreqs_keys tf _ (fun w hw => ht w (by simp only [Dict.keys, List.map_cons, List.mem_cons]; exact Or.inr hw)) (h.set ?_ _)
    exact (ht p.1 (by simp [Dict.keys])).append (Sc.cons Scalar.SP Sc.nil)

theorem ScTable.bpeTf {ord : Nat → List Nat → List Nat} {A : Acc} {tf : Dict Str Int} {lc vs mf minEv : Int} {cov : Option A.F} {v : List Ty}
    (h : bpeLearnTf ord A tf lc vs mf cov minEv = .ok v) (hs : ScDict tf) : ScTable v := by
  have h0 : ScDict [] := by simp [ScDict, Dict.keys]
  simp only [bpeLearnTf] at h
  generalize (if 1 < minEv ∧ vs ≤ 1 then maxSize else vs) = vs' at h
  split at h
  · cases h
  simp only [learnSubwords] at h
  split at h
  · cases h
  rename_i v0 hv0
  obtain ⟨k1, k2⟩ := charFreqs_keys (preparedFreqs tf) [] (preparedFreqs_keys tf [] hs h0) h0 (by simp [Dict.keys])
  have hv : ScTable v0 := ScTable.init k2 hv0 k1
  split at h
  · cases h; exact hv
  · exact ScTable.learnCodesOf h hv

theorem ScTable.learnVocab {ord : Nat → List Nat → List Nat} {A : Acc} {level : LevelName} {data : List Str} {vs mf minEv : Int} {cov : Option A.F}
    {v : List Ty} (h : learnVocab ord A level data vs mf cov minEv = .ok v) (hs : ∀ l ∈ data, Sc l) : ScTable v := by
  cases level with
  | word =>
    have h' : getInitVocab A Level.word (termFrequencies .word data).1 none (some (termFrequencies .word data).2) (effMinFreq .word mf) vs = .ok v := h
    exact ScTable.init (termFrequencies_nodup .word data) h' (ScDict.termFrequencies _ hs)
  | char =>
    have h' : getInitVocab A Level.char (termFrequencies .char data).1 cov (some (termFrequencies .char data).2) (effMinFreq .char mf) vs = .ok v := h
    exact ScTable.init (termFrequencies_nodup .char data) h' (ScDict.termFrequencies _ hs)
  | clasz => cases h; exact ScTable.clasz (ScDict.termFrequencies _ hs)
  | byte => cases h; exact ScTable.byte
  | bpe => exact ScTable.bpeTf (mf := mf) h (ScDict.termFrequencies _ hs)
  | subword => exact ScTable.bpeTf (mf := mf) h (ScDict.termFrequencies _ hs)

theorem ScTable.learnTf {J : Json} {ord : Nat → List Nat → List Nat} {A : Acc} {level : LevelName} {lines : List Str} {vs mf minEv : Int}
    {cov : Option A.F} {v : List Ty} (h : learnTf J ord A level lines vs mf cov minEv = .ok v) (hs : ∀ l ∈ lines, Sc l) : ScTable v := by
  have bp : ∀ e, (match readTermFreqs J lines with
      | .error e => .error e
      | .ok (tf, n) => bpeLearnTf ord A tf n vs (effMinFreq level mf) cov e) = Except.ok v → ScTable v := by
    intro e h
    split at h
    · cases h
    · rename_i tf n hr
      exact ScTable.bpeTf h (ScDict.readTermFreqs hs hr)
  simp only [Verif.learnTf] at h
  cases level with
  | word =>
    simp only [learnFromStats] at h
    split at h
    · cases h
    · rename_i tf n hr; exact ScTable.init (readTermFreqs_nodup hr) h (ScDict.readTermFreqs hs hr)
  | char =>
    simp only at h
    split at h
    · cases h
    · rename_i tf n hr; exact ScTable.init (readTermFreqs_nodup hr) h (ScDict.readTermFreqs hs hr)
  | clasz =>
    simp only at h
    split at h
    · cases h
    · rename_i tf n hr; cases h; exact ScTable.clasz (ScDict.readTermFreqs hs hr)
  | byte => cases h; exact ScTable.byte
  | bpe =>
    simp only [if_true] at h
    generalize minEv = e at h
    generalize (if 1 < e ∧ vs ≤ 1 then maxSize else vs) = vs' at h
    split at h
    · cases h
    · exact bp _ h
  | subword =>
    simp only at h
    generalize (if LevelName.subword = LevelName.bpe then minEv else MIN_CO_EV) = e at h
    generalize (if 1 < e ∧ vs ≤ 1 then maxSize else vs) = vs' at h
    split at h
    · cases h
    · exact bp _ h

/-! ## model files -/

theorem Sc.format {t : Ty} (h : Sc t.name) : Sc t.format := by
  refine Sc.join (Sc.cons (Scalar.ascii (by omega)) Sc.nil) fun w hw => ?_
  simp only [List.mem_cons, List.not_mem_nil, or_false] at hw
  rcases hw with rfl | rfl | rfl | rfl | rfl
  · exact Sc.natStr _
  · exact h
  · exact Sc.intStr _
  · exact Sc.intStr _
  · exact Sc.ascii fun c hc => by have := kidCol_chars t.kids c hc; omega

theorem Sc.writeRows : ∀ {v : List Ty} {i : Nat} {r : Str}, ScTable v → writeRows v i = .ok r → Sc r
  | [], i, r, _, h => by cases h; exact Sc.nil
  | t :: v, i, r, hv, h => by
    simp only [Verif.writeRows] at h
    split at h
    · split at h
      · cases h
      · rename_i r' hr
        cases h
        exact (Sc.format (hv t (by simp))).append (Sc.cons (Scalar.ascii (by omega)) (Sc.writeRows (fun t ht => hv t (by simp [ht])) hr))
    · cases h

theorem Sc.rowsWritten : ∀ {v : List Ty} {i : Nat}, ScTable v → Sc (rowsWritten v i)
  | [], i, _ => Sc.nil
  | t :: v, i, hv => by
    simp only [Verif.rowsWritten]
    split
    · exact (Sc.format (hv t (by simp))).append (Sc.cons (Scalar.ascii (by omega)) (Sc.rowsWritten (fun t ht => hv t (by simp [ht]))))
    · exact Sc.nil

theorem Sc.dropSurrogates {s : Str} (h : Sc s) : Sc (dropSurrogates s) := h.sub fun _ hc => List.mem_of_mem_filter hc

theorem Sc.header {J : Json} (hJ : JsonLaws J) (k : Kind) (m : Int) : Sc (J.dumps { scheme := some k.name, maxLevel := some m }) := by
  refine Sc.ascii fun c hc => ?_
  have := hJ.ascii _ ⟨rfl, ?_⟩ c hc
  · omega
  · intro n hn
    cases hn
    cases k <;> decide

theorem made_table {k : Kind} {v : List Ty} {s : Scheme} (h : Scheme.make k v = .ok s) : s.table = v ∨ s.table = byteVocab := by
  have hm : ∀ {k : Kind} {v : List Ty} {s : Scheme}, mkInvertible k v = .ok s → s.table = v := fun h => (mkInvertible_ok h).1
  cases k with
  | bpe => exact Or.inl (make_bpe_ok h).1
  | clasz => exact Or.inl (hm h)
  | byte =>
    have := hm (k := .byte) h
    split at this
    · exact Or.inr this
    · exact Or.inl this
  | word =>
    simp only [Scheme.make] at h
    split at h
    · cases h
    · exact Or.inl (hm h)
  | char =>
    simp only [Scheme.make] at h
    split at h
    · cases h
    · exact Or.inl (hm h)

theorem ScTable.make {k : Kind} {v : List Ty} {s : Scheme} (h : Scheme.make k v = .ok s) (hv : ScTable v) : ScTable s.table := by
  rcases made_table h with e | e
  · rw [e]; exact hv
  · rw [e]; exact ScTable.byte

/-- the model file that is written can be encoded, also after a failure -/
theorem Sc.saveModel {J : Json} (hJ : JsonLaws J) {k : Kind} {table : List Ty} (hv : ScTable table) {text : Str}
    (h : (saveModel J k table none).1 = some text) : Sc text := by
  have h10 : Scalar 10 := Scalar.ascii (by omega)
  have h35 : Scalar 35 := Scalar.ascii (by omega)
  simp only [Verif.saveModel] at h
  split at h
  · cases h
  rename_i s hs
  have hv' := ScTable.make hs hv
  split at h
  · rename_i text' ht
    cases h
    simp only [Scheme.save, writeOut] at ht
    split at ht
    · cases ht
    split at ht
    · cases ht
    rename_i rows hr
    cases ht
    refine Sc.dropSurrogates ?_
    exact (Sc.cons h35 (Sc.header hJ _ _)).append (Sc.cons h10 (Sc.writeRows hv' hr))
  · split at h
    · cases h; exact Sc.nil
    · cases h
      exact Sc.dropSurrogates ((Sc.cons h35 (Sc.header hJ _ _)).append (Sc.cons h10 (Sc.rowsWritten hv')))

theorem ScTable.readTypes {n : Nat} : ∀ (lines : List Str) {done v : List Ty}, readTypes n done lines = .ok v → (∀ l ∈ lines, Sc l) → ScTable done →
    ScTable v
  | [], done, v, h, _, hd => by cases h; exact hd
  | line :: lines, done, v, h, hl, hd => by
    simp only [Verif.readTypes] at h
    split at h
    · cases h
    rename_i r hr
    split at h
    · split at h
      · cases h
      · rename_i kids hk
        refine ScTable.readTypes lines h (fun l hl' => hl l (by simp [hl'])) (hd.append fun t ht => ?_)
        rw [List.mem_singleton.1 ht]
        have hn : r.name ∈ splitOn (· == 9) (strip line) := by
          simp only [parseType] at hr
          split at hr
          · rename_i c0 c1 c2 c3 more heq
            rw [heq]
            have : r.name = c1 := by
              repeat' (split at hr)
              all_goals first
                | (cases hr; done)
                | (cases hr; rfl)
            rw [this]; simp
          · cases hr
        exact ((hl line (by simp)).strip).splitOn hn
    · cases h

theorem mem_fileLines {text l : Str} (h : l ∈ fileLines text) : l ∈ splitOn (· == 10) text := by
  simp only [fileLines] at h
  split at h
  · exact List.mem_of_mem_dropLast h
  · exact h

theorem ScTable.load {J : Json} {text : Str} {s : Scheme} (h : loadScheme J text = .ok s) (hs : Sc text) : ScTable s.table := by
  simp only [loadScheme] at h
  split at h
  · cases h
  rename_i types hd hr
  split at h
  · cases h
  refine ScTable.make h ?_
  have hl : ∀ l ∈ (fileLines (univNewlines text)).map strip, Sc l := by
    intro l hl
    obtain ⟨l', hl', rfl⟩ := List.mem_map.1 hl
    exact (hs.univNewlines.splitOn (mem_fileLines hl')).strip
  have h0 : ScTable [] := by simp [ScTable]
  simp only [readVocab] at hr
  split at hr
  · cases hr
  rename_i l0 ls heq
  rw [heq] at hl
  split at hr
  · split at hr
    · cases hr
    split at hr
    · cases hr
    rename_i t ht
    cases hr
    exact ScTable.readTypes _ ht (fun l h => hl l (by simp [h])) h0
  · split at hr
    · cases hr
    rename_i t ht
    cases hr
    exact ScTable.readTypes _ ht hl h0

/-! ## lines -/

theorem namesOf_mem {table : List Ty} : ∀ {ids : List Int} {ns : List Str}, namesOf table ids = .ok ns → ∀ n ∈ ns, ∃ t ∈ table, t.name = n
  | [], ns, h => by cases h; simp
  | i :: is, ns, h => by
    simp only [namesOf] at h
    split at h
    · rename_i t ns' ht hn
      cases h
      intro n hm
      rcases List.mem_cons.1 hm with rfl | hm
      · refine ⟨t, ?_, rfl⟩
        simp only [pyIndex] at ht
        repeat' (split at ht)
        all_goals first
          | (cases ht; done)
          | (cases ht; rename_i h; exact List.mem_of_getElem? h)
      · exact namesOf_mem hn n hm
    · cases h
    · cases h

theorem Sc.encodeLine {s : Scheme} (hv : ScTable s.table) {b : Bool} {line r : Str} (hl : Sc line) (h : encodeLine s b line = .ok r) : Sc r := by
  have h32 : Sc [32] := Sc.cons (Scalar.ascii (by omega)) Sc.nil
  simp only [Verif.encodeLine] at h
  split at h
  · split at h
    · cases h
    · cases h
      refine Sc.join h32 fun w hw => ?_
      obtain ⟨i, _, rfl⟩ := List.mem_map.1 hw
      exact Sc.intStr i
  · split at h
    · cases h
    · rename_i ps hp
      cases h
      refine Sc.join h32 fun w hw => ?_
      simp only [Scheme.encodeStr] at hp
      split at hp
      · cases hp; exact hl.split hw
      · cases hp
        obtain ⟨c, hc, rfl⟩ := List.mem_map.1 hw
        have : Sc (Verif.join [SP] (Verif.split line)) := Sc.join (Sc.cons Scalar.SP Sc.nil) fun w hw => hl.split hw
        exact Sc.cons (this c hc) Sc.nil
      · split at hp
        · cases hp
        · obtain ⟨t, ht, rfl⟩ := namesOf_mem hp w hw
          exact hv t ht
      · cases hp; rw [List.mem_singleton.1 hw]; exact hl.strip
      · split at hp
        · cases hp
        · rename_i bs hb
          cases hp
          obtain ⟨b, hb', rfl⟩ := List.mem_map.1 hw
          obtain ⟨bs', e, hlt⟩ := utf8Encode_ok line (utf8Encode_scalar hb)
          rw [hb] at e; cases e
          have : ∀ b < 256, ∀ c ∈ codeToStr b, c < 128 := by decide +kernel
          exact Sc.ascii (this b (hlt b hb'))

theorem Sc.utf8Dec : ∀ (k : Nat) (bs : List Nat), Sc (utf8DecAux k bs)
  | 0, bs => Sc.nil
  | k + 1, [] => Sc.nil
  | k + 1, b :: bs => by
    rw [utf8DecAux]
    cases hs : utf8Step (b :: bs) with
    | mk o r =>
      cases o with
      | none => exact Sc.cons ⟨by omega, by omega⟩ (Sc.utf8Dec k r)
      | some p =>
        obtain ⟨c, r'⟩ := p
        obtain ⟨x, hx, _⟩ := utf8Step_some hs
        refine Sc.cons ?_ (Sc.utf8Dec k r')
        have : utf8Encode [c] = .ok (x ++ []) := by simp [utf8Encode, hx]
        exact utf8Encode_scalar this c (by simp)

theorem Sc.byteDecode (s : Scheme) : ∀ (ps buf : List Str) {r : Str}, (∀ p ∈ ps, Sc p) → byteDecode s ps buf = .ok r → Sc r := by
  have hcomp : ∀ {ps : List Str} {r : Str}, composeStr ps = .ok r → Sc r := by
    intro ps r h
    simp only [composeStr] at h
    split at h
    · cases h
    · cases h; exact Sc.utf8Dec _ _
  have hbuf : ∀ {buf : List Str} {r : Str}, (if buf.isEmpty then (.ok [] : Py Str) else composeStr buf) = .ok r → Sc r := by
    intro buf r h
    split at h
    · cases h; exact Sc.nil
    · exact hcomp h
  intro ps
  induction ps with
  | nil => intro buf r _ h; exact hbuf h
  | cons p ps ih =>
    intro buf r hp h
    rw [Verif.byteDecode] at h
    split at h
    · split at h
      · cases h
      rename_i a ha
      split at h
      · cases h
      rename_i b hb
      cases h
      exact ((hbuf ha).append (hp p (by simp))).append (ih [] (fun q hq => hp q (by simp [hq])) hb)
    · exact ih _ (fun q hq => hp q (by simp [hq])) h

theorem Sc.decodeLine {s : Scheme} (hv : ScTable s.table) {b : Bool} {line r : Str} (hl : Sc line) (h : decodeLine s b line = .ok r) : Sc r := by
  have h32 : Scalar 32 := Scalar.ascii (by omega)
  have key : ∀ {ps : List Str}, (∀ p ∈ ps, Sc p) → s.decodeStr ps = .ok r → Sc r := by
    intro ps hp h
    simp only [Scheme.decodeStr] at h
    split at h
    · cases h; exact Sc.join (Sc.cons h32 Sc.nil) hp
    · cases h; exact Sc.replaceCh h32 (Sc.flatten hp)
    · cases h; exact (Sc.replaceCh h32 (Sc.flatten hp)).strip
    · cases h; exact Sc.join (Sc.cons (Scalar.ascii (by omega)) Sc.nil) hp
    · exact Sc.byteDecode s ps [] hp h
  simp only [Verif.decodeLine] at h
  split at h
  · split at h
    · cases h
    · simp only [Scheme.decode] at h
      split at h
      · cases h
      · rename_i ns hn
        refine key (fun p hp => ?_) h
        obtain ⟨t, ht, rfl⟩ := namesOf_mem hn p hp
        exact hv t ht
  · exact key (fun p hp => hl.split hp) h

theorem genMap_out {α β : Type} {f : α → Py β} {e : Option Exc} : ∀ (as : List α) {b : β}, b ∈ (genMap f e as).out → ∃ a ∈ as, f a = .ok b
  | [], b, h => by simp [genMap] at h
  | a :: as, b, h => by
    rw [genMap] at h
    split at h
    · simp at h
    · rename_i b' hb
      rcases List.mem_cons.1 h with rfl | h
      · exact ⟨a, by simp, hb⟩
      · obtain ⟨a', h1, h2⟩ := genMap_out as h
        exact ⟨a', by simp [h1], h2⟩

/-- lines that can be encoded are all written -/
theorem writeBytes_ok : ∀ (ls : List Str) (e : Option Exc), (∀ l ∈ ls, Sc l) →
    ∃ bs, utf8Encode (ls.flatMap (· ++ [10])) = .ok bs ∧ writeBytes ls e = (bs, e)
  | [], e, _ => ⟨[], rfl, rfl⟩
  | l :: ls, e, h => by
    obtain ⟨bs, h1, h2⟩ := writeBytes_ok ls e fun l hl => h l (by simp [hl])
    obtain ⟨x, hx, _⟩ := utf8Encode_ok l (h l (by simp))
    refine ⟨x ++ 10 :: bs, ?_, ?_⟩
    · have h10 : utf8Encode (10 :: ls.flatMap (· ++ [10])) = .ok (10 :: bs) := by
        simp [utf8Encode, h1, utf8Char]
      have := utf8Encode_append hx h10
      simpa using this
    · simp only [writeBytes, hx, h2]

end Verif
