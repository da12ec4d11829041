import Verif.Lemmas.Tags

/-!
# C44, C46, C49: copies of tags, tag classes and the text of tags
-/

namespace Verif.Tags

open Verif

/-! ## C44: copies -/

/-- C44: copying a value that can be read gives a value with the same content, which shares no object with the
original: the copy is as it was whatever is done to the objects that existed before, and the original is as it was
whatever is done to the objects made by the copy. -/
theorem C44_deep (n : Nat) (h : Heap) (v : Val) (f : Full) (hr : read n h v = some f) :
    ∃ h' v', copyTag n h v = .ok (h', v') ∧ SameOld h h' ∧ read n h' v = some f ∧ read n h' v' = some f ∧
      (∀ h'', SameNew h h' h'' → read n h'' v' = some f) ∧ (∀ h'', SameOld h h'' → read n h'' v = some f) := by
  obtain ⟨h', v', e, p, r⟩ := copyTag_spec n h v f hr
  have ho := sameOld_prefix h h' p
  exact ⟨h', v', e, ho, read_old n h h' ho v f hr, (r h' (fun _ _ _ => rfl)).1, fun h'' hs => (r h'' hs).1,
    fun h'' hs => read_old n h h'' hs v f hr⟩

/-- C44: `Tag.flatten` finds the tags of a tag and no other object, if no list in it has a list in it. -/
theorem C44_flatten_partial (n : Nat) (h : Heap) (a : Addr) (f : Full) (hr : read n h (.tag a) = some f)
    (hf : flat f = true) (b : Addr) : b ∈ flattenTags n h (.tag a) ↔ Inside h (.tag a) b := by
  rw [mem_flattenTags]
  exact ⟨flattenAll_sound n h _ b, flattenAll_inside n h _ f ⟨a, Or.inl rfl⟩ hr hf b⟩

/-- C44: what is found is in the tag, even if lists have lists in them. -/
theorem C44_flatten_sound (n : Nat) (h : Heap) (v : Val) (b : Addr) (hb : b ∈ flattenTags n h v) : Inside h v b :=
  flattenAll_sound n h v b ((mem_flattenTags n h v b).1 hb)

/-- C44: replacing the context gives the new context to all tags of a tag without lists in lists and changes
nothing else of it. -/
theorem C44_replace_partial (n : Nat) (h : Heap) (a : Addr) (f : Full) (hr : read n h (.tag a) = some f)
    (hf : flat f = true) (c : Nat) :
    read n (replaceContext n h (.tag a) (some c)) (.tag a) = some (withContext c f) :=
  read_reset c _ h _ (fold_reset c _ h) n _ f hr (fun b hb => (C44_flatten_partial n h a f hr hf b).2 hb)

/-- C44: replacing the context changes only the contexts of tags of the tag, and only to the new context. -/
theorem C44_replace_frame (n : Nat) (h : Heap) (v : Val) (c : Nat) (i : Nat)
    (hi : (replaceContext n h v (some c))[i]? ≠ h[i]?) :
    (replaceContext n h v (some c))[i]? = some (.weak (some c)) ∧
    ∃ b t, Inside h v b ∧ h[b]? = some (.tag t) ∧ t.weak = i := by
  rcases (fold_reset c (flattenTags n h v) h).2.1 i with e | ⟨⟨b, t, hb, ht, hw⟩, _, e⟩
  · exact absurd e hi
  · exact ⟨e, b, t, C44_flatten_sound n h v b hb, ht, hw⟩

/-- C44: `tag.copy(new_context)` of a tag without lists in lists: the copy has the content of the tag and the new
context everywhere, nothing of the original is changed, and the copy shares no object with it. -/
theorem C44_copy_partial (n : Nat) (h : Heap) (a : Addr) (f : Full) (hr : read n h (.tag a) = some f)
    (hf : flat f = true) (c : Nat) :
    ∃ h' b, copyWith n h (.tag a) (some c) = .ok (h', .tag b) ∧ SameOld h h' ∧
      read n h' (.tag b) = some (withContext c f) ∧
      (∀ x, Inside h' (.tag b) x → contextOf h' x = some (some c)) ∧
      (∀ x, Inside h' (.tag b) x → h.length ≤ x) := by
  obtain ⟨h1, v1, e1, p1, r1⟩ := copyTag_spec n h (.tag a) f hr
  obtain ⟨b, rfl⟩ := copyTag_tag n h a h1 v1 e1
  obtain ⟨hrd, hown⟩ := r1 h1 (fun _ _ _ => rfl)
  have hreset := fold_reset c (flattenTags n h1 (.tag b)) h1
  have hmem := C44_flatten_partial n h1 b f hrd hf
  have hins : ∀ x, Inside (replaceContext n h1 (.tag b) (some c)) (.tag b) x → Inside h1 (.tag b) x := by
    intro x
    unfold replaceContext
    generalize hH : (flattenTags n h1 (.tag b)).foldl (fun h a => setContext h (some c) a) h1 = H at hreset
    generalize flattenTags n h1 (.tag b) = as at hreset
    generalize Val.tag b = v
    intro hx
    induction hx with
    | self y => exact .self y
    | content y z t ht _ ih => exact .content y z t ((reset_tag c _ h1 _ hreset y t).1 ht) ih
    | item y z l w hl hw _ ih =>
      refine .item y z l w ?_ hw ih
      rcases hreset.2.1 y with e | ⟨_, _, e⟩
      · rw [e] at hl
        exact hl
      · rw [e] at hl
        simp at hl
  refine ⟨replaceContext n h1 (.tag b) (some c), b, by simp [copyWith, e1], ?_, ?_, ?_, ?_⟩
  · intro i hi
    rw [← sameOld_prefix h h1 p1 i hi]
    rcases hreset.2.1 i with e | ⟨⟨x, t, hx, ht, hw⟩, _, _⟩
    · exact e
    · exfalso
      obtain ⟨_, t', ht', hk, _⟩ := owned_inside h.length h1 n _ hown x ((hmem x).1 hx)
      rw [ht] at ht'
      simp only [Option.some.injEq, Cell.tag.injEq] at ht'
      subst ht'
      rw [hw] at hk
      omega
  · exact C44_replace_partial n h1 b f hrd hf c
  · intro x hx
    have hx' := hins x hx
    have hmx := (hmem x).2 hx'
    have key : ∀ (m : Nat) (v : Val) (g : Full), read m h1 v = some g → ∀ y, Inside h1 v y →
        ∃ t c0, h1[y]? = some (.tag t) ∧ h1[t.weak]? = some (.weak c0) := by
      intro m
      induction m with
      | zero => intro v g e; simp [read] at e
      | succ m ih =>
        intro v g e y hy
        cases hy with
        | self =>
          obtain ⟨t, d, c0, g', e1, _, e3, _, _⟩ := read_tag m h1 y g e
          exact ⟨t, c0, e1, e3⟩
        | content z _ t ht hin =>
          obtain ⟨t', d, c0, g', e1, _, _, e4, _⟩ := read_tag m h1 z g e
          rw [ht] at e1
          simp only [Option.some.injEq, Cell.tag.injEq] at e1
          subst e1
          exact ih _ g' e4 y hin
        | item z _ l w hl hw hin =>
          obtain ⟨l', fs, e1, e2, _⟩ := read_list m h1 z g e
          rw [hl] at e1
          simp only [Option.some.injEq, Cell.list.injEq] at e1
          subst e1
          obtain ⟨g', _, e3⟩ := readItems_mem _ l fs e2 w hw
          exact ih w g' e3 y hin
    obtain ⟨t, c0, h2, h3⟩ := key n _ f hrd x hx'
    have h4 := hreset.2.2 x hmx t c0 h2 h3
    have h5 := (reset_tag c _ h1 _ hreset x t).2 h2
    show contextOf (replaceContext n h1 (.tag b) (some c)) x = _
    unfold contextOf replaceContext
    simp only [h5, h4]
  · intro x hx
    exact (owned_inside h.length h1 n _ hown x (hins x hx)).1

/-! ### Findings -/

/-- A tag with the content `["a", @b{x}]`, one with a list in a list, and one with content `None`. -/
def sampleHeap : Heap :=
  [.attrs [("k".toList, "v".toList)], .weak (some 1),
   .tag ⟨"bold".toList, "b".toList, 0, 1, .str "x".toList⟩,
   .list [.str "a".toList, .tag 2],
   .attrs [], .weak (some 1),
   .tag ⟨"p".toList, "p".toList, 4, 5, .list 3⟩,
   .list [.str "c".toList, .list 3],
   .attrs [], .weak (some 1),
   .tag ⟨"p".toList, "p".toList, 8, 9, .list 7⟩,
   .attrs [], .weak (some 1),
   .tag ⟨"p".toList, "p".toList, 11, 12, .other⟩]

/-- The tag at 6 meets the hypotheses, with a tag in its list. -/
example : ∃ f, read 5 sampleHeap (.tag 6) = some f ∧ flat f = true := ⟨_, rfl, rfl⟩

example : flattenTags 5 sampleHeap (.tag 6) = [6, 2] := by decide

/-- C44 does not hold of tags in lists of lists: the tag at 2 is in the tag at 10, but it is not found, and its copy
keeps the old context. -/
theorem C44_nested_list_keeps_context :
    flattenTags 9 sampleHeap (.tag 10) = [10] ∧ Inside sampleHeap (.tag 10) 2 ∧
    contextOf (replaceContext 9 sampleHeap (.tag 10) (some 7)) 2 = some (some 1) := by
  refine ⟨by decide, ?_, by decide⟩
  refine .content 10 2 _ rfl (.item 7 2 _ (.list 3) rfl (by simp) (.item 3 2 _ (.tag 2) rfl (by simp) (.self 2)))

/-- A tag whose content is neither a string, a list nor a tag cannot be copied. -/
theorem C44_none_content_error (n : Nat) : copyTag (n + 2) sampleHeap (.tag 13) = .error .attribute := by
  rfl

/-- The context cannot be removed: replacing it by nothing changes nothing. -/
theorem C44_replace_none (n : Nat) (h : Heap) (v : Val) : replaceContext n h v none = h := by
  unfold replaceContext
  generalize flattenTags n h v = l
  induction l with
  | nil => rfl
  | cons a l ih => simpa [List.foldl_cons, setContext] using ih

/-! ## C46: tag classes -/

/-- C46: the classes can be entered exactly if no name or alias is used twice. -/
theorem C46_classes (cs : List TagClass) : (tagClasses cs []).isSome ↔ (cs.flatMap namesOf).Nodup := by
  rw [tagClasses_isSome]
  simp [Dict.keys]

/-- C46: the class of a tag is the class of that name or alias, provided that it is active and not one of the
inactive tags of the context. -/
theorem C46_class (lower : Str → Str) (cs : List TagClass) (d : Dict Str TagClass) (hd : tagClasses cs [] = some d)
    (inactive : List Str) (name : Str) (c : TagClass) :
    tagClass lower d inactive name = some c ↔
      c ∈ cs ∧ lower name ∈ namesOf c ∧ c.active = true ∧ c.name ∉ inactive := by
  have hg := tagClasses_get cs [] d hd (lower name)
  have hnil : ∀ c, Dict.get? ([] : Dict Str TagClass) (lower name) = some c → False := by
    intro c h; simp [Dict.get?] at h
  unfold tagClass
  cases hl : d.get? (lower name) with
  | none =>
    simp only [reduceCtorEq, false_iff]
    rintro ⟨h1, h2, _⟩
    have := (hg c).2 (Or.inr ⟨h1, h2⟩)
    rw [hl] at this
    cases this
  | some c' =>
    have hc' := (hg c').1 hl
    have hc' : c' ∈ cs ∧ lower name ∈ namesOf c' := hc'.resolve_left (fun h => hnil c' h)
    simp only
    constructor
    · intro e
      split at e
      · rename_i hact
        simp only [Option.some.injEq] at e
        subst e
        simp only [Bool.and_eq_true, Bool.not_eq_true', List.contains_eq_mem, decide_eq_false_iff_not] at hact
        exact ⟨hc'.1, hc'.2, hact.1, hact.2⟩
      · cases e
    · rintro ⟨h1, h2, h3, h4⟩
      have := (hg c).2 (Or.inr ⟨h1, h2⟩)
      rw [hl] at this
      simp only [Option.some.injEq] at this
      subst this
      rw [if_pos]
      simp [h3, h4]

/-- C46: otherwise the tag is a generic one. -/
theorem C46_generic (lower : Str → Str) (cs : List TagClass) (d : Dict Str TagClass) (hd : tagClasses cs [] = some d)
    (inactive : List Str) (name : Str) :
    tagClass lower d inactive name = none ↔
      ∀ c ∈ cs, lower name ∈ namesOf c → c.active = false ∨ c.name ∈ inactive := by
  constructor
  · intro e c hc hn
    by_cases ha : c.active = true
    · by_cases hi : c.name ∈ inactive
      · exact Or.inr hi
      · have := (C46_class lower cs d hd inactive name c).2 ⟨hc, hn, ha, hi⟩
        rw [e] at this
        cases this
    · exact Or.inl (by simpa using ha)
  · intro h
    cases e : tagClass lower d inactive name with
    | none => rfl
    | some c =>
      obtain ⟨h1, h2, h3, h4⟩ := (C46_class lower cs d hd inactive name c).1 e
      rcases h c h1 h2 with h | h
      · rw [h3] at h; cases h
      · exact absurd h h4

/-- C46: the classes of the package have distinct names and aliases. -/
theorem C46_package : (tagClasses allClasses []).isSome = true := by decide

/-- C46: so each of them is found under its name and under each of its aliases, unless it is inactive. -/
theorem C46_package_found (c : TagClass) (hc : c ∈ allClasses) (n : Str) (hn : n ∈ namesOf c) (ha : c.active = true)
    (inactive : List Str) (hi : c.name ∉ inactive) :
    ∃ d, tagClasses allClasses [] = some d ∧ tagClass id d inactive n = some c := by
  obtain ⟨d, hd⟩ := Option.isSome_iff_exists.1 C46_package
  exact ⟨d, hd, (C46_class id allClasses d hd inactive n c).2 ⟨hc, hn, ha, hi⟩⟩

theorem usable_eq : (allClasses.filter (·.active)).map (fun c => (c.name, namesOf c)) =
    usable.map (fun e => (e.1.toList, e.2.map String.toList)) := by decide

/-- C46: the names under which tags are found, and the tags that are found under them, are those in the list. -/
theorem C46_usable (d : Dict Str TagClass) (hd : tagClasses allClasses [] = some d) (n t : Str) :
    (∃ c, tagClass id d [] n = some c ∧ c.name = t) ↔
      ∃ e ∈ usable, e.1.toList = t ∧ ∃ m ∈ e.2, m.toList = n := by
  have h1 : (∃ c, tagClass id d [] n = some c ∧ c.name = t) ↔
      ∃ e ∈ (allClasses.filter (·.active)).map (fun c => (c.name, namesOf c)), e.1 = t ∧ n ∈ e.2 := by
    constructor
    · rintro ⟨c, hc, rfl⟩
      obtain ⟨h1, h2, h3, -⟩ := (C46_class id allClasses d hd [] n c).1 hc
      exact ⟨_, List.mem_map.2 ⟨c, List.mem_filter.2 ⟨h1, h3⟩, rfl⟩, rfl, h2⟩
    · rintro ⟨e, he, rfl, hn⟩
      obtain ⟨c, hc, rfl⟩ := List.mem_map.1 he
      obtain ⟨h1, h2⟩ := List.mem_filter.1 hc
      exact ⟨c, (C46_class id allClasses d hd [] n c).2 ⟨h1, hn, h2, by simp⟩, rfl⟩
  rw [h1, usable_eq]
  constructor
  · rintro ⟨e, he, h, hn⟩
    obtain ⟨u, hu, rfl⟩ := List.mem_map.1 he
    exact ⟨u, hu, h, List.mem_map.1 hn⟩
  · rintro ⟨u, hu, h, hn⟩
    exact ⟨_, List.mem_map.2 ⟨u, hu, rfl⟩, h, List.mem_map.2 hn⟩

/-- A tag is found by its alias, and not if it is inactive. -/
example : ((tagClasses allClasses []).map fun d =>
    ((tagClass id d [] "textbf".toList).map (·.name), (tagClass id d ["bold".toList] "textbf".toList).map (·.name),
     (tagClass id d [] "basefigure".toList).map (·.name), (tagClass id d [] "nosuchtag".toList).map (·.name)))
    = some (some "bold".toList, none, none, none) := by decide

/-- Listing an alias as inactive has no effect: the tag is found by that alias. -/
theorem C46_inactive_alias : ((tagClasses allClasses []).map fun d =>
    (tagClass id d ["textbf".toList] "textbf".toList).map (·.name)) = some (some "bold".toList) := by decide

/-! ## C49: text -/

/-- C49: the text of a content without lists in lists is that of its parts in order, with nothing between them,
whatever the tags do with the text of their content. -/
theorem C49_text_partial (wrap : Str → Str → Str) (t : Tree) (hf : flatTree t = true) :
    contentToStr wrap t = .ok (text wrap t) := by
  unfold contentToStr
  cases t with
  | list l =>
    obtain ⟨ss, h1, h2⟩ := formatItems_text wrap l (by simpa [flatTree] using hf)
    simp only [h1, joinItems_strs, h2, text]
  | str s => simp [formatItems, formatItem, joinItems, text]
  | tag c t =>
    have := formatItem_text wrap (.tag c t) hf (by simp)
    simp [formatItems, this, joinItems]

/-- C49: the text of a list is that of its items in order. -/
theorem C49_concat_partial (wrap : Str → Str → Str) (l : List Tree) (hf : flatTrees l = true) :
    ∃ ss : List Str, l.map (contentToStr wrap) = ss.map .ok ∧ contentToStr wrap (.list l) = .ok ss.flatten := by
  have h1 := C49_text_partial wrap (.list l) (by simpa [flatTree] using hf)
  refine ⟨l.map (text wrap), ?_, ?_⟩
  · have : ∀ t ∈ l, contentToStr wrap t = .ok (text wrap t) := by
      intro t ht
      apply C49_text_partial
      clear h1
      induction l with
      | nil => simp at ht
      | cons u l ih =>
        cases u with
        | list m => simp [flatTrees] at hf
        | str s =>
          simp only [flatTrees, Bool.and_eq_true] at hf
          rcases List.mem_cons.1 ht with rfl | ht
          · exact hf.1
          · exact ih hf.2 ht
        | tag c t' =>
          simp only [flatTrees, Bool.and_eq_true] at hf
          rcases List.mem_cons.1 ht with rfl | ht
          · exact hf.1
          · exact ih hf.2 ht
    rw [List.map_map]
    exact List.map_congr_left this
  · rw [h1]
    congr 1
    simp only [text]
    clear h1 hf
    induction l with
    | nil => rfl
    | cons t l ih => simp [texts, ih]

/-- C49: for tags without formatting of their own, the text is the concatenation of all strings in reading
order. -/
theorem C49_plain_partial (t : Tree) (hf : flatTree t = true) :
    contentToStr (fun _ s => s) t = .ok (strings t).flatten := by
  rw [C49_text_partial _ t hf, text_strings]

example : contentToStr (fun _ s => s) (.list [.str "a ".toList, .tag "b".toList (.list [.str "x".toList,
    .tag "i".toList (.tag "sup".toList (.str "y".toList))]), .str " c".toList]) = .ok "a xy c".toList := rfl

/-- C49 does not hold of a list in a list: with other items it raises an error. -/
theorem C49_nested_list_error (wrap : Str → Str → Str) (s : Str) (l : List Tree) :
    contentToStr wrap (.list [.str s, .list l]) = .error .type := rfl

/-- A single list in a list is not formatted: its strings are joined, and a tag in it raises an error. -/
theorem C49_single_nested_error (wrap : Str → Str → Str) (c s : Str) :
    contentToStr wrap (.list [.list [.tag c (.str s)]]) = .error .type := rfl

end Verif.Tags
