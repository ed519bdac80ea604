import Verif.Proofs.HtmlMinimal
import Verif.Proofs.HtmlSpace
import Verif.Spec.Again
/-!
# Minifying a page again and again
-/
set_option linter.unusedSimpArgs false
namespace Verif.Html
open Verif.Spec.Html Verif.Spec

/-- A run makes the page smaller, or does nothing but replace some white space. -/
theorem minify_cases {T : Tables} {s o : List Char} (h : minify T s = some o) : bytes o < bytes s ∨ o = condenseWhitespace T s := by
  rw [minify, unquote_eq, Option.map_some, trim_trim] at h
  have h := Option.some.inj h
  have s1 := strict_comments s
  have s2 := strict_condense T (removeComments s)
  have s3 := strict_tags (condense T (removeComments s))
  have s4 := (shrinks_space T (cleanUnneededTags (condense T (removeComments s)))).size
  have s5 := strict_allTidied T (condenseWhitespace T (cleanUnneededTags (condense T (removeComments s))))
  have s6 := strict_trim (allTidied T (condenseWhitespace T (cleanUnneededTags (condense T (removeComments s)))))
  rw [h] at s6
  have l1 := s1.le; have l2 := s2.le; have l3 := s3.le; have l5 := s5.le; have l6 := s6.le
  by_cases hb : bytes o < bytes s
  · exact .inl hb
  · right
    have e6 := s6.eq (by omega)
    have e5 := s5.eq (by omega)
    have e3 := s3.eq (by omega)
    have e2 := s2.eq (by omega)
    have e1 := s1.eq (by omega)
    rw [e6, e5, e3, e2, e1]

/-- After at most `2 * bytes s + 1` runs nothing changes any more. -/
theorem settles {T : Tables} (hT : T.Ok) (n : Nat) : ∀ s, bytes s ≤ n →
    ∃ k o, k ≤ 2 * bytes s + 1 ∧ again (minify T) k s = some o ∧ minify T o = some o := by
  induction n using Nat.strongRecOn with
  | _ n ih =>
    intro s hn
    obtain ⟨o, ho, -⟩ := minify_some T s
    rcases minify_cases ho with h1 | h1
    · obtain ⟨k, p, hk, hp, hf⟩ := ih (bytes o) (by omega) o (Nat.le_refl _)
      exact ⟨k + 1, p, by omega, by rw [again, ho]; exact hp, hf⟩
    · obtain ⟨q, hq, hsz⟩ := minify_some T o
      have hso : bytes o ≤ bytes s := by
        obtain ⟨o', h2, h3⟩ := minify_some T s
        rw [h2] at ho
        rw [← Option.some.inj ho]
        exact h3.size
      rcases minify_cases hq with h2 | h2
      · obtain ⟨k, p, hk, hp, hf⟩ := ih (bytes q) (by omega) q (Nat.le_refl _)
        exact ⟨k + 2, p, by omega, by rw [again, ho, Option.bind_some, again, hq]; exact hp, hf⟩
      · rw [h1, condenseWhitespace_again hT, ← h1] at h2
        exact ⟨1, o, by omega, by rw [again, ho]; rfl, by rw [hq, h2]⟩

/-! ## Pages that need many runs -/

/-- Neither white space nor quotes. -/
def Gapless (s : List Char) : Prop := ∀ c ∈ s, isWhitespace c = false ∧ c ≠ '"'

theorem Gapless.part {s a t b : List Char} (h : Gapless s) (e : s = a ++ t ++ b) : Gapless t :=
  fun c hc => h c (by rw [e]; simp [hc])

theorem gapless_space {t : List Char} (h : Gapless t) (hw : ∃ c ∈ t, isWhitespace c = true) : False := by
  obtain ⟨c, hc, hc'⟩ := hw
  rw [(h c hc).1] at hc'; cases hc'

theorem gapless_quote {t : List Char} (h : Gapless t) (hw : '"' ∈ t) : False := (h _ hw).2 rfl

theorem plus_space {t : List Char} (h : lang (.plus space) t) : ∃ c ∈ t, isWhitespace c = true := by
  obtain ⟨h1, h2⟩ := lang_plus.1 h
  cases t with
  | nil => exact absurd rfl h1
  | cons c t => exact ⟨c, by simp, h2 c (by simp)⟩

theorem seq_space {a b : Re} {t : List Char} (h : lang (.seq a (.seq (.plus space) b)) t) : ∃ c ∈ t, isWhitespace c = true := by
  obtain ⟨x, y, rfl, -, u, v, rfl, h2, -⟩ := h
  obtain ⟨c, hc, hc'⟩ := plus_space h2
  exact ⟨c, by simp [hc], hc'⟩

theorem findIter_nil_of {r : Re} (hs : solid r) {s : List Char} (h : ∀ a t b, s = a ++ t ++ b → ¬ lang r t) : findIter r s = [] := by
  cases hf : findIter r s with
  | nil => rfl
  | cons t ts =>
    have ht : t ∈ findIter r s := by rw [hf]; simp
    obtain ⟨a, b, e⟩ := findIter_infix hs ht
    exact absurd (findIter_lang hs ht) (h a t b e)

theorem tidyTag_gapless {T : Tables} {s : List Char} (h : Gapless s) : tidyTag T s = some s := by
  unfold tidyTag
  split
  · rfl
  · simp only
    rw [replaceAll_none (solid_spacesBeforeClose _) (s := s) fun a t b e hl => gapless_space (h.part e) (seq_space hl),
      replaceAll_none (solid_spacesBeforeClose _) (s := s) fun a t b e hl => gapless_space (h.part e) (seq_space hl),
      findIter_nil_of (solid_betweenWords T) (s := s) fun a t b e hl => gapless_space (h.part e) (seq_space hl),
      findIter_nil_of (solid_extraSpaces3 T) (s := s) fun a t b e hl => gapless_space (h.part e) (seq_space hl)]
    have e0 : spaceLoop [] [] s = s := rfl
    rw [e0, findIter_nil_of (solid_extraSpaces2 T) (s := s) fun a t b e hl => by
      obtain ⟨q, x, y, r, -, ht, hx, -⟩ := lang_extraSpaces2 hl
      exact gapless_space (h.part e) ⟨x, by rw [ht]; simp, hx⟩]
    show some (replaceAll quotesInTag unquote s) = some s
    rw [replaceAll_none solid_quotesInTag fun a t b e hl => by
      obtain ⟨k, v, ht, -⟩ := lang_quotes.1 hl
      exact gapless_quote (h.part e) (by rw [ht]; simp)]

theorem trim_gapless {s : List Char} (h : Gapless s) : trim s = s := by
  obtain ⟨a, b, e, ha, hb⟩ := trim_spec s
  have h1 : a = [] := by
    cases a with
    | nil => rfl
    | cons c a => exact (gapless_space h ⟨c, by rw [e]; simp, ha c (by simp)⟩).elim
  have h2 : b = [] := by
    cases b with
    | nil => rfl
    | cons c b => exact (gapless_space h ⟨c, by rw [e]; simp, hb.1 c (by simp)⟩).elim
  rw [h1, h2] at e
  simpa using e.symm

theorem white_gapless {T : Tables} {s : List Char} (h : Gapless s) : condenseWhitespace T s = s := by
  unfold condenseWhitespace
  simp only
  split
  · show replaceAll runs (fun _ => [' ']) (replaceAll betweenTags (fun _ => "> <".toList) s) = s
    rw [replaceAll_none solid_betweenTags (s := s) fun a t b e hl => gapless_space (h.part e) (seq_space hl)]
    refine replaceAll_none solid_runs fun a t b e hl => gapless_space (h.part e) ?_
    rcases hl with hl | ⟨c, rfl, hc⟩
    · obtain ⟨x, y, rfl, -, h2⟩ := hl
      obtain ⟨c, hc, hc'⟩ := plus_space h2
      exact ⟨c, by simp [hc], hc'⟩
    · refine ⟨c, by simp, ?_⟩
      rcases (by simpa [isBreak] using hc : c = '\r' ∨ c = '\n') with rfl | rfl <;> decide +kernel
  · exact trim_gapless h

/-- A page without white space and quotes only loses comments, types and tags. -/
theorem minify_gapless {T : Tables} {s : List Char} (h : Gapless (cleanUnneededTags (condense T (removeComments s)))) :
    minify T s = some (cleanUnneededTags (condense T (removeComments s))) := by
  rw [minify, white_gapless h, unquote_eq]
  have : allTidied T (cleanUnneededTags (condense T (removeComments s))) = cleanUnneededTags (condense T (removeComments s)) := by
    generalize cleanUnneededTags (condense T (removeComments s)) = x at h
    unfold allTidied
    refine (replaceAll_rel (R := fun s o => Gapless s → o = s) ⟨fun _ => rfl, fun _ _ => rfl, ?_⟩ (solid_anyTag T) x ?_) h
    · intro a b c d h1 h2 h3
      rw [h1 fun c hc => h3 c (by simp [hc]), h2 fun c hc => h3 c (by simp [hc])]
    · intro u hit hm hg
      rw [tidied, tidyTag_gapless hg]; rfl
  rw [this, trim_gapless h]
  simp [trim_gapless h]

/-- `<bo<bo<body>dy>dy>`: tags that show one after the other. -/
def deep : Nat → List Char
  | 0 => []
  | k + 1 => "<bo".toList ++ (deep k ++ "dy>".toList)

theorem deep_chars (k : Nat) : ∀ c ∈ deep k, c ∈ "<body>".toList := by
  induction k with
  | zero => intro c hc; simp [deep] at hc
  | succ k ih =>
    intro c hc
    have h1 : ∀ c ∈ "<bo".toList, c ∈ "<body>".toList := by decide +kernel
    have h2 : ∀ c ∈ "dy>".toList, c ∈ "<body>".toList := by decide +kernel
    simp only [deep, List.mem_append] at hc
    rcases hc with hc | hc | hc
    · exact h1 c hc
    · exact ih c hc
    · exact h2 c hc

/-- `<bo` `k` times. -/
def openings : Nat → List Char
  | 0 => []
  | k + 1 => "<bo".toList ++ openings k

/-- `dy>` `k` times. -/
def closings : Nat → List Char
  | 0 => []
  | k + 1 => "dy>".toList ++ closings k

theorem closings_end (k : Nat) : closings k ++ "dy>".toList = "dy>".toList ++ closings k := by
  induction k with
  | zero => simp [closings]
  | succ k ih => rw [closings, List.append_assoc, ih]

theorem deep_eq (k : Nat) : deep k = openings k ++ closings k := by
  induction k with
  | zero => rfl
  | succ k ih => rw [deep, ih, openings, closings, List.append_assoc, List.append_assoc, closings_end]

theorem replaceStr_skip {pat to s : List Char} {c : Char} (hp : pat ≠ []) (h : ¬ ∃ u, c :: s = pat ++ u) :
    replaceStr pat to (c :: s) = c :: replaceStr pat to s := by
  rcases ends_str (s := c :: s) hp with ⟨u, hu, -⟩ | ⟨-, he⟩
  · exact absurd ⟨u, hu⟩ h
  · exact replaceAll_miss _ he

theorem closings_absent (k : Nat) : '<' ∉ closings k := by
  induction k with
  | zero => simp [closings]
  | succ k ih =>
    have : '<' ∉ "dy>".toList := by decide +kernel
    simp [closings, ih, this]

theorem replaceStr_body (j m : Nat) :
    replaceStr "<body>".toList [] (openings (j + 1) ++ closings (m + 1)) = openings j ++ closings m := by
  have hb : "<body>".toList = ['<', 'b', 'o', 'd', 'y', '>'] := by decide +kernel
  have ho : "<bo".toList = ['<', 'b', 'o'] := by decide +kernel
  have hc : "dy>".toList = ['d', 'y', '>'] := by decide +kernel
  induction j with
  | zero =>
    have e : openings 1 ++ closings (m + 1) = "<body>".toList ++ closings m := by
      simp [openings, closings, hb, ho, hc]
    rw [e]
    rcases ends_str (pat := "<body>".toList) (s := "<body>".toList ++ closings m) (by simp) with ⟨u, hu, h, hh, he, h1, h2⟩ | ⟨h, -⟩
    · have hu' := List.append_cancel_left hu
      rw [replaceStr, replaceAll_hit (solid_str _) _ he, h2, ← hu']
      show [] ++ replaceStr "<body>".toList [] (closings m) = openings 0 ++ closings m
      rw [replaceStr_absent (fun a b e => closings_absent m (by rw [e, hb]; simp)) (by simp)]
      rfl
    · exact absurd ⟨_, rfl⟩ h
  | succ j ih =>
    have e : openings (j + 1 + 1) ++ closings (m + 1) = '<' :: 'b' :: 'o' :: (openings (j + 1) ++ closings (m + 1)) := by
      rw [openings, ho]; rfl
    have e2 : openings (j + 1) ++ closings (m + 1) = '<' :: 'b' :: 'o' :: (openings j ++ closings (m + 1)) := by
      rw [openings, ho]; rfl
    rw [e, replaceStr_skip (by simp), replaceStr_skip (by simp), replaceStr_skip (by simp), ih]
    · rw [openings, ho]; rfl
    all_goals
      rintro ⟨u, hu⟩
      rw [hb] at hu
      simp [e2] at hu

/-- Only `<body>` can go from a text of its characters. -/
theorem clean_deep (k : Nat) : cleanUnneededTags (deep (k + 1)) = deep k := by
  have hab : ∀ n, ∀ t ∈ uselessTags, t ≠ "<body>".toList → replaceStr t [] (deep n) = deep n := by
    intro n t ht hne
    have h : ∀ t ∈ uselessTags, t ≠ "<body>".toList → t ≠ [] ∧ ∃ c ∈ t, c ∉ "<body>".toList := by decide +kernel
    obtain ⟨h1, c, hc, hn⟩ := h t ht hne
    exact replaceStr_absent (fun a b e => hn (deep_chars n c (by rw [e]; simp [hc]))) h1
  have hfold : ∀ n (ts : List (List Char)), (∀ t ∈ ts, t ∈ uselessTags ∧ t ≠ "<body>".toList) →
      ts.foldl (fun res t => replaceStr t [] res) (deep n) = deep n := by
    intro n ts hts
    induction ts with
    | nil => rfl
    | cons t ts ih =>
      rw [List.foldl_cons, hab n t (hts t (by simp)).1 (hts t (by simp)).2]
      exact ih fun x hx => hts x (by simp [hx])
  have hcut : uselessTags = uselessTags.take 2 ++ "<body>".toList :: uselessTags.drop 3 := by decide +kernel
  have h1 : ∀ t ∈ uselessTags.take 2, t ∈ uselessTags ∧ t ≠ "<body>".toList := by decide +kernel
  have h2 : ∀ t ∈ uselessTags.drop 3, t ∈ uselessTags ∧ t ≠ "<body>".toList := by decide +kernel
  rw [cleanUnneededTags, hcut, List.foldl_append, hfold _ _ h1, List.foldl_cons, deep_eq, replaceStr_body, ← deep_eq, hfold _ _ h2]

theorem deep_step (T : Tables) (k : Nat) : minify T (deep (k + 1)) = some (deep k) := by
  have hch := deep_chars (k + 1)
  have h1 : removeComments (deep (k + 1)) = deep (k + 1) := by
    refine replaceAll_none solid_comment fun a t b e hl => ?_
    obtain ⟨u, hu, -⟩ := lang_lit.1 hl
    have : '!' ∈ deep (k + 1) := by
      rw [e, hu, show "<!--".toList = ['<', '!', '-', '-'] by decide +kernel]; simp
    exact absurd (hch _ this) (by decide +kernel)
  have h2 : condense T (deep (k + 1)) = deep (k + 1) := by
    refine replaceAll_none (solid_styleTag T) fun a t b e hl => ?_
    have : 's' ∈ deep (k + 1) := by
      obtain ⟨x, y, rfl, -, u, v, rfl, hu, -⟩ := hl
      have : 's' ∈ u := by
        rcases hu with hu | hu
        · rw [(lang_str (by simp)).1 hu]; decide +kernel
        · rw [(lang_str (by simp)).1 hu]; decide +kernel
      rw [e]; simp [this]
    exact absurd (hch _ this) (by decide +kernel)
  have h3 : cleanUnneededTags (condense T (removeComments (deep (k + 1)))) = deep k := by rw [h1, h2, clean_deep]
  rw [← h3]
  refine minify_gapless ?_
  rw [h3]
  have hg : ∀ c ∈ "<body>".toList, isWhitespace c = false ∧ c ≠ '"' := by decide +kernel
  exact fun c hc => hg c (deep_chars k c hc)

theorem deep_length (k : Nat) : (deep k).length = 6 * k := by
  induction k with
  | zero => rfl
  | succ k ih =>
    have h1 : "<bo".toList.length = 3 := by decide +kernel
    have h2 : "dy>".toList.length = 3 := by decide +kernel
    simp only [deep, List.length_append, ih, h1, h2]; omega

theorem deep_again (T : Tables) (j k : Nat) : again (minify T) j (deep (j + k)) = some (deep k) := by
  induction j with
  | zero => simp [again]
  | succ j ih => rw [again, show j + 1 + k = j + k + 1 by omega, deep_step]; exact ih

end Verif.Html
