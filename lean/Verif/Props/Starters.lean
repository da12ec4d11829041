import Verif.Lemmas.Starters

/-!
# C67: a new project has the files of its starter, and nothing else is touched
-/

namespace Verif.Starters

open Verif

variable {parse : Str → Dict Str Str} {strip : Str → Str} {brk : Char → Bool} {d : Disk} {templates : Loc}

theorem emptyDir_isEmpty (d : Disk) (p : Loc) (h : EmptyDir d p) : isEmpty d p = true := by
  unfold isEmpty
  have h1 : isDir d p = true := by unfold isDir; exact decide_eq_true h.1
  rw [h1, Bool.true_and, List.all_eq_true]
  intro rel hr
  rw [decide_eq_true_eq]
  intro hl
  obtain ⟨h0, hg⟩ := (mem_glob _ _ _).mp hr
  cases rel with
  | nil => exact h0 rfl
  | cons x r =>
    cases r with
    | nil => exact hg (h.2 x)
    | cons y r => simp at hl

theorem isEmpty_emptyDir (d : Disk) (p : Loc) (h : isEmpty d p = true) : EmptyDir d p := by
  unfold isEmpty at h
  rw [Bool.and_eq_true, List.all_eq_true] at h
  refine ⟨of_decide_eq_true h.1, fun x => Classical.not_not.mp fun hx => ?_⟩
  have := h.2 [x] ((mem_glob _ _ _).mpr ⟨by simp, hx⟩)
  simp at this

theorem getLast?_append_ne (a b : Loc) (h : b ≠ []) : (a ++ b).getLast? = b.getLast? := by
  rw [List.getLast?_append, List.getLast?_eq_some_getLast h]; rfl

theorem clone_ok (hs : Sound d) (st : Starter) (out : Loc) (ni confirm : Bool) (ho : ni = true ∨ confirm = true ∨ EmptyDir d out)
    (hr : Room d st.path.dropLast out) (hf : ∃ rel s, Supplies d st.path.dropLast rel s) :
    ∃ d' copied, cloneStarter d st out ni confirm = ⟨d', copied, none⟩ ∧ NewProject d d' st.path.dropLast out ∧
      (∀ rel dest, (rel, dest) ∈ copied ↔ dest = out ++ rel ∧ ∃ s, Supplies d st.path.dropLast rel s) ∧
      (copied.map Prod.fst).Nodup ∧ copied.Pairwise fun a b => Before a.1 b.1 := by
  have hguard : (!ni && !isEmpty d out && !confirm) = false := by
    rcases ho with h | h | h
    · simp [h]
    · simp [h]
    · simp [emptyDir_isEmpty d out h]
  unfold cloneStarter
  rw [hguard]
  have hfs : starterFiles d st ≠ [] := by
    obtain ⟨rel, s, h⟩ := hf
    intro h0
    have := (mem_starterFiles d st rel (st.path.dropLast ++ rel)).mpr ⟨rfl, s, h⟩
    rw [h0] at this
    simp at this
  simp only [Bool.false_eq_true, if_false]
  rw [if_neg hfs]
  have hperm := sortWith_perm (fun a b => keyLe a.1 b.1) (starterFiles d st)
  have hmem : ∀ f, f ∈ sortWith (fun a b => keyLe a.1 b.1) (starterFiles d st) ↔
      f.2 = st.path.dropLast ++ f.1 ∧ ∃ s, Supplies d st.path.dropLast f.1 s := by
    intro f
    rw [hperm.mem_iff]
    exact mem_starterFiles d st f.1 f.2
  have hnd := ((hperm.map Prod.fst).nodup_iff).mpr (starterFiles_nodup d st hs.once)
  obtain ⟨e, h1, h2⟩ := copyAll_run d hs st.path.dropLast out hr _ d [] [] (fun f hf => (hmem f).mp hf) (by simp) hnd (by simp)
    ⟨by simp, fun p _ => .inl rfl⟩
  have hsup : ∀ rel, rel ∈ (sortWith (fun a b => keyLe a.1 b.1) (starterFiles d st)).map Prod.fst ↔
      ∃ s, Supplies d st.path.dropLast rel s := by
    intro rel
    rw [List.mem_map]
    constructor
    · rintro ⟨f, hf, rfl⟩; exact ((hmem f).mp hf).2
    · intro h; exact ⟨(rel, st.path.dropLast ++ rel), (hmem _).mpr ⟨rfl, h⟩, rfl⟩
  rw [List.nil_append] at h1 h2
  refine ⟨e, _, h1, ⟨fun rel s h => h2.files rel ((hsup rel).mpr ⟨s, h⟩) s h, fun p hp => ?_⟩, ?_, ?_, ?_⟩
  · rcases h2.rest p (fun rel hrel => by obtain ⟨s, h⟩ := (hsup rel).mp hrel; exact hp rel s h) with h | ⟨h3, h4, rel, hrel, h5, _⟩
    · exact .inl h
    · obtain ⟨s, h⟩ := (hsup rel).mp hrel
      exact .inr ⟨h3, h4, rel, s, h, h5⟩
  · intro rel dest
    rw [List.mem_map]
    constructor
    · rintro ⟨f, hf, he⟩
      cases he
      exact ⟨rfl, ((hmem f).mp hf).2⟩
    · rintro ⟨rfl, h⟩
      exact ⟨(rel, st.path.dropLast ++ rel), (hmem _).mpr ⟨rfl, h⟩, rfl⟩
  · rw [List.map_map]; exact hnd
  · rw [List.pairwise_map]; exact sortedFiles _

/-- **C67**. With descriptions in their places and templates not inside of one another, the command with the name of a starter puts the
files of the starter, with their texts, into an empty directory (or any, if the user agrees), makes the directories needed, and changes
nothing else. The files are copied in order. -/
theorem C67_new_project (hs : Sound d) (ha : AllDescribe parse d templates) (hf : Flat d templates) (rel template name : Loc)
    (text called : Str) (names : List Str) (hd : Describes d templates rel template name text) (hc : CalledAs template name called)
    (out : Loc) (ni confirm : Bool) (ho : ni = true ∨ confirm = true ∨ EmptyDir d out) (root : Loc)
    (hroot : root = templates ++ template ++ ["starters".toList] ++ name) (hr : Room d root out) (hsup : ∃ rel s, Supplies d root rel s) :
    ∃ d' copied, init parse strip brk d templates (called :: names) out false false ni confirm = ⟨d', copied, none⟩ ∧
      NewProject d d' root out ∧ (∀ rel dest, (rel, dest) ∈ copied ↔ dest = out ++ rel ∧ ∃ s, Supplies d root rel s) ∧
      (copied.map Prod.fst).Nodup ∧ copied.Pairwise fun a b => Before a.1 b.1 := by
  obtain ⟨S, h1, h2, _⟩ := generate_ok (strip := strip) hs ha hf
  obtain ⟨st, h3, h4, _⟩ := h2 rel template name text hd
  have he : st.path.dropLast = root := by
    rw [h4, hd.path, hroot]
    have : templates ++ (template ++ ["starters".toList] ++ name ++ ["description.yaml".toList]) =
        (templates ++ template ++ ["starters".toList] ++ name) ++ ["description.yaml".toList] := by
      generalize "starters".toList = a
      generalize "description.yaml".toList = b
      simp
    rw [this, List.dropLast_concat]
  subst he
  unfold init
  rw [h1]
  simp only [Bool.false_eq_true, if_false]
  rw [hc, h3]
  exact clone_ok hs st out ni confirm ho hr hsup

/-- **C67**. The names that can be given to the command are those of the descriptions, each for its own starter. -/
theorem C67_starters (hs : Sound d) (ha : AllDescribe parse d templates) (hf : Flat d templates) :
    ∃ S, generateStarters parse strip d templates = .ok S ∧
      (∀ rel template name text called, Describes d templates rel template name text → CalledAs template name called →
        ∃ st, S.get? called = some st ∧ st.path = templates ++ rel ∧ EntriesOf parse strip template text st.entries) ∧
      ∀ called, (∀ rel template name text, Describes d templates rel template name text → ¬ CalledAs template name called) →
        S.get? called = none ∧ ∀ names out info ni confirm,
          init parse strip brk d templates (called :: names) out info false ni confirm = ⟨d, [], some .badParameter⟩ := by
  obtain ⟨S, h1, h2, h3⟩ := generate_ok (strip := strip) hs ha hf
  refine ⟨S, h1, fun rel t n text c h hc => ?_, fun c hc => ?_⟩
  · obtain ⟨st, h⟩ := h2 rel t n text h
    exact ⟨st, by rw [hc]; exact h.1, h.2⟩
  · have hn := h3 c fun rel t n text h e => hc rel t n text h e
    refine ⟨hn, fun names out info ni confirm => ?_⟩
    unfold init
    rw [h1]
    simp only [Bool.false_eq_true, if_false]
    rw [hn]

/-- **C67**. The command changes nothing if no starter is given, if the list of starters or information is asked for, if there is no
starter of the name, or if the directory is not empty and the user does not agree. -/
theorem C67_asks_only (names : List Str) (out : Loc) (info showList ni confirm : Bool)
    (h : names = [] ∨ showList = true ∨ info = true ∨ (ni = false ∧ confirm = false ∧ ¬ EmptyDir d out)) :
    (init parse strip brk d templates names out info showList ni confirm).disk = d ∧
    (init parse strip brk d templates names out info showList ni confirm).copied = [] := by
  unfold init
  split
  · exact ⟨rfl, rfl⟩
  · split
    · split <;> exact ⟨rfl, rfl⟩
    · rename_i n ns _
      by_cases hl : showList = true
      · rw [if_pos hl]
        split <;> exact ⟨rfl, rfl⟩
      · rw [if_neg hl]
        split
        · exact ⟨rfl, rfl⟩
        · by_cases hi : info = true
          · rw [if_pos hi]; exact ⟨rfl, rfl⟩
          · rw [if_neg hi]
            rcases h with h | h | h | ⟨h1, h2, h3⟩
            · cases h
            · exact absurd h hl
            · exact absurd h hi
            · have he : isEmpty d out = false := Bool.eq_false_iff.mpr fun he => h3 (isEmpty_emptyDir d out he)
              unfold cloneStarter
              rw [h1, h2, he]
              exact ⟨rfl, rfl⟩

/-- **C67**. Whatever is on the disk and however the command ends, only the destinations of files of a starter change (the places of these
names inside of them, if they are directories), and new things are only in the directory of the project or are directories above it. -/
theorem C67_untouched (names : List Str) (out : Loc) (info showList ni confirm : Bool) (p : Loc) :
    (init parse strip brk d templates names out info showList ni confirm).disk.get? p = d.get? p ∨
    (d.get? p = none ∧ (p <+: out ∨ out <+: p)) ∨
    ∃ root rel s, Supplies d root rel s ∧ (p = out ++ rel ∨ ∃ n, rel.getLast? = some n ∧ p = out ++ rel ++ [n]) := by
  unfold init
  split
  · exact .inl rfl
  · split
    · split <;> exact .inl rfl
    · by_cases hl : showList = true
      · rw [if_pos hl]
        split <;> exact .inl rfl
      · rw [if_neg hl]
        split
        · exact .inl rfl
        · rename_i st _
          by_cases hi : info = true
          · rw [if_pos hi]; exact .inl rfl
          · rw [if_neg hi]
            unfold cloneStarter
            split
            · exact .inl rfl
            · simp only
              split
              · exact .inl rfl
              · have hperm := sortWith_perm (fun a b => keyLe a.1 b.1) (starterFiles d st)
                have hmem : ∀ f, f ∈ sortWith (fun a b => keyLe a.1 b.1) (starterFiles d st) →
                    f.2 = st.path.dropLast ++ f.1 ∧ ∃ s, Supplies d st.path.dropLast f.1 s := by
                  intro f hf
                  rw [hperm.mem_iff] at hf
                  exact (mem_starterFiles d st f.1 f.2).mp hf
                rcases copyAll_safe d out _ d [] (fun f hf => by
                  obtain ⟨h1, s, h2⟩ := hmem f hf
                  rw [h1, List.getLastD_eq_getLast?, List.getLastD_eq_getLast?, getLast?_append_ne _ _ h2.1]) p with h | h | ⟨f, hf, h⟩
                · exact .inl h
                · exact .inr (.inl h)
                · obtain ⟨_, s, h2⟩ := hmem f hf
                  refine .inr (.inr ⟨st.path.dropLast, f.1, s, h2, ?_⟩)
                  rcases h with h | h
                  · exact .inl h
                  · refine .inr ⟨f.1.getLast h2.1, List.getLast?_eq_some_getLast h2.1, ?_⟩
                    rw [h, List.getLastD_eq_getLast?, congrArg (Option.getD · []) (List.getLast?_eq_some_getLast h2.1)]; rfl

/-- **C67** is false of the other starters if one description is not a file, not in a directory `starters` or has no entry `description`:
the command with any name is an error. -/
theorem C67_faulty (rel : Loc) (h : d.get? (templates ++ rel) ≠ none) (hl : rel.getLast? = some "description.yaml".toList)
    (hb : d.get? (templates ++ rel) = some .dir ∨ "starters".toList ∉ rel ∨
      ∃ text, d.get? (templates ++ rel) = some (.file text) ∧ "description".toList ∉ (parse text).keys)
    (names : List Str) (out : Loc) (info showList ni confirm : Bool) :
    ∃ e, init parse strip brk d templates names out info showList ni confirm = ⟨d, [], some e⟩ := by
  have bad : ∀ S, ∃ e, addStarter parse strip d templates S rel = .error e := by
    intro S
    unfold addStarter
    simp only [bind, Except.bind]
    cases hr : readText d (templates ++ rel) with
    | error e => exact ⟨e, rfl⟩
    | ok text =>
      simp only
      cases ht : pathTemplate rel with
      | error e => exact ⟨e, rfl⟩
      | ok t =>
        simp only
        rw [Dict.get?_set, if_neg template_ne_description]
        have hg : (parse text).get? "description".toList = none := by
          rcases hb with h1 | h1 | ⟨text', h1, h2⟩
          · unfold readText at hr; rw [h1] at hr; cases hr
          · unfold pathTemplate at ht
            rw [if_neg (show starterDir ∉ rel from h1)] at ht; cases ht
          · unfold readText at hr; rw [h1] at hr; cases hr
            exact (Dict.get?_eq_none_iff _ _).mpr h2
        rw [hg]
        exact ⟨_, rfl⟩
  have hm : rel ∈ (glob d templates).filter fun rel => rel.getLast? = some descName := by
    refine List.mem_filter.mpr ⟨(mem_glob _ _ _).mpr ⟨?_, h⟩, decide_eq_true hl⟩
    rintro rfl; cases hl
  obtain ⟨e, he⟩ := addStarters_faulty rel bad _ [] hm
  refine ⟨e, ?_⟩
  unfold init generateStarters
  rw [he]

theorem mapM_list {α β : Type} (f : α → Except Err β) (l : List α) (r : List β) :
    l.mapM f = .ok r → r.length = l.length ∧ ∀ x ∈ l.zip r, f x.1 = .ok x.2 := by
  induction l generalizing r with
  | nil => intro h; cases h; simp
  | cons a l ih =>
    intro h
    rw [List.mapM_cons] at h
    cases ha : f a with
    | error e => rw [ha] at h; cases h
    | ok b =>
      rw [ha] at h
      cases hl : l.mapM f with
      | error e => simp only [hl, bind, Except.bind] at h; cases h
      | ok bs =>
        simp only [hl, bind, Except.bind, pure, Except.pure] at h
        cases h
        obtain ⟨h1, h2⟩ := ih bs hl
        refine ⟨by simp [h1], fun x hx => ?_⟩
        rw [List.zip_cons_cons, List.mem_cons] at hx
        rcases hx with rfl | hx
        · exact ha
        · exact h2 x hx

/-- **C67**. The list of starters has the name of each starter once, in order, with the first line of its description. -/
theorem C67_list (S : Dict Str Starter) (lines : List (Str × Str)) (h : startersList brk S = .ok lines) :
    (lines.map Prod.fst).Perm S.keys ∧ (lines.map Prod.fst).Pairwise (· ≤ ·) ∧
    ∀ name line, (name, line) ∈ lines → ∃ st text, (name, st) ∈ S ∧ (st.entries.get? "description".toList).getD [] = text ∧
      FirstLine brk text line := by
  unfold startersList at h
  by_cases h0 : S = []
  · rw [if_pos h0] at h; cases h
  · rw [if_neg h0] at h
    obtain ⟨h1, h2⟩ := mapM_list _ _ _ h
    have hnames : lines.map Prod.fst = (sortWith (fun a b => decide (a.1 ≤ b.1)) S).map Prod.fst := by
      refine List.ext_getElem (by simpa using h1) fun i hi hi' => ?_
      rw [List.getElem_map, List.getElem_map]
      simp only [List.length_map] at hi hi'
      have := h2 ((sortWith (fun a b => decide (a.1 ≤ b.1)) S)[i], lines[i]) (by
        rw [← List.getElem_zip (h := by rw [List.length_zip]; omega)]
        exact List.getElem_mem _)
      simp only at this
      split at this
      · cases this
      · have h3 := Except.ok.inj this
        rw [← h3]
    rw [hnames]
    have hsorted := sortWith_pairwise (fun a b : Str × Starter => decide (a.1 ≤ b.1))
      (fun a b c h h' => decide_eq_true (List.le_trans (of_decide_eq_true h) (of_decide_eq_true h')))
      (fun a b => by
        rw [Bool.or_eq_true, decide_eq_true_eq, decide_eq_true_eq]
        exact List.le_total _ _) S
    refine ⟨(sortWith_perm _ _).map _, by rw [List.pairwise_map]; exact hsorted.imp fun h => of_decide_eq_true h, fun name line hm => ?_⟩
    obtain ⟨i, hi, hx⟩ := List.getElem_of_mem hm
    have hi' : i < (sortWith (fun a b => decide (a.1 ≤ b.1)) S).length := by omega
    have := h2 ((sortWith (fun a b => decide (a.1 ≤ b.1)) S)[i], lines[i]) (by
      rw [← List.getElem_zip (h := by rw [List.length_zip]; omega)]
      exact List.getElem_mem _)
    simp only at this
    split at this
    · cases this
    · rename_i l ls hl
      have h3 := Except.ok.inj this
      rw [hx] at h3
      cases h3
      exact ⟨_, _, (sortWith_perm _ S).mem_iff.mp (List.getElem_mem hi'), rfl, splitlines_first _ _ _ _ hl⟩

/-! ### Examples and findings -/

def loc (s : String) : Loc := (split ['/'] s.toList)

/-- The entries of a description (for examples). -/
def asciiParse (s : Str) : Dict Str Str := Utils.strToDict (fun c => c = ' ' || c = '\n') (· = '\n') s true

def asciiStrip (s : Str) : Str := Verif.strip (fun c => c = ' ' || c = '\n') s

def exampleDisk : Disk := [(loc "t", .dir), (loc "t/books", .dir), (loc "t/books/starters", .dir), (loc "t/books/starters/novel", .dir),
  (loc "t/books/starters/novel/description.yaml", .file "description: A novel ".toList),
  (loc "t/books/starters/novel/src", .dir), (loc "t/books/starters/novel/src/a.dm", .file "text".toList),
  (loc "t/books/starters/novel/README", .file "read".toList), (loc "home", .dir), (loc "home/notes", .file "mine".toList)]

def exampleInit (d : Disk) (name : String) (out : String) (ni confirm : Bool) : Outcome :=
  init asciiParse asciiStrip (· = '\n') d (loc "t") [name.toList] (loc out) false false ni confirm

theorem C67_example :
    (exampleInit exampleDisk "books/novel" "home/p" true false).copied =
      [(loc "README", loc "home/p/README"), (loc "src/a.dm", loc "home/p/src/a.dm")] ∧
    (exampleInit exampleDisk "books/novel" "home/p" true false).disk = exampleDisk ++ [(loc "home/p", .dir),
      (loc "home/p/README", .file "read".toList), (loc "home/p/src", .dir), (loc "home/p/src/a.dm", .file "text".toList)] ∧
    exampleInit exampleDisk "books/novel" "home" false false = ⟨exampleDisk, [], none⟩ ∧
    (exampleInit exampleDisk "novel" "home" true false).error = some .badParameter := by decide +kernel

/-- **C67** is false of a directory in the place of a file: the file is put inside of that directory. -/
theorem C67_in_directory :
    (exampleInit (exampleDisk ++ [(loc "home/README", .dir)]) "books/novel" "home" true false).error = none ∧
    (exampleInit (exampleDisk ++ [(loc "home/README", .dir)]) "books/novel" "home" true false).disk.get? (loc "home/README/README") =
      some (.file "read".toList) := by decide +kernel

/-- **C67** is false of a starter with an empty description: it is one of the starters, but there is no list of starters. -/
theorem C67_no_list : ((generateStarters asciiParse asciiStrip (exampleDisk.set (loc "t/books/starters/novel/description.yaml")
    (.file "description: ".toList)) (loc "t")).toOption.map (·.length)) = some 1 ∧
    (init asciiParse asciiStrip (· = '\n') (exampleDisk.set (loc "t/books/starters/novel/description.yaml")
    (.file "description: ".toList)) (loc "t") [] (loc "home") false true true true).error = some .index := by decide +kernel

/-- **C67** is false of a starter without files: the command is an error. -/
theorem C67_no_files : (exampleInit (exampleDisk.filter fun x => x.1 ≠ loc "t/books/starters/novel/README" ∧
    x.1 ≠ loc "t/books/starters/novel/src/a.dm") "books/novel" "home" true false).error = some .value := by decide +kernel

/-- **C67** is false of templates in other templates: two starters have the same name, and only one of them can be used. -/
theorem C67_clash : ((generateStarters asciiParse asciiStrip (exampleDisk ++ [(loc "t/books/novel", .dir), (loc "t/books/novel/starters", .dir),
    (loc "t/books/novel/starters/description.yaml", .file "description: Another".toList)]) (loc "t")).toOption.map fun S =>
    S.map fun x => (String.ofList x.1, x.2.path)) = some [("books/novel", loc "t/books/novel/starters/description.yaml")] := by decide +kernel

/-- The hypotheses of the theorems hold of the example. -/
theorem example_sound : Sound exampleDisk := by
  have keys : exampleDisk.keys = [loc "t", loc "t/books", loc "t/books/starters", loc "t/books/starters/novel",
    loc "t/books/starters/novel/description.yaml", loc "t/books/starters/novel/src", loc "t/books/starters/novel/src/a.dm",
    loc "t/books/starters/novel/README", loc "home", loc "home/notes"] := rfl
  refine ⟨by decide +kernel, by decide +kernel, fun p x h0 h => ?_, fun p h => ?_⟩
  · have hm : p ++ [x] ∈ exampleDisk.keys := Classical.not_not.mp fun hn => h ((Dict.get?_eq_none_iff _ _).mpr hn)
    have key : ∀ q ∈ exampleDisk.keys, q.dropLast ≠ [] → exampleDisk.get? q.dropLast = some .dir := by decide +kernel
    have := key _ hm
    rw [List.dropLast_concat] at this
    exact this h0
  · have hm : p ∈ exampleDisk.keys := Classical.not_not.mp fun hn => h ((Dict.get?_eq_none_iff _ _).mpr hn)
    have key : ∀ q ∈ exampleDisk.keys, ∀ n ∈ q, n ≠ [] ∧ n ≠ ['.'] ∧ '/' ∉ n := by decide +kernel
    exact key p hm

theorem example_describes : Describes exampleDisk (loc "t") (loc "books/starters/novel/description.yaml") (loc "books") (loc "novel")
    "description: A novel ".toList :=
  ⟨by decide +kernel, by decide +kernel, by decide +kernel, by decide +kernel⟩

/-- The only description of the example. -/
theorem example_only (rel : Loc) (h : exampleDisk.get? (loc "t" ++ rel) ≠ none) (hl : rel.getLast? = some "description.yaml".toList) :
    rel = loc "books/starters/novel/description.yaml" := by
  have hm : loc "t" ++ rel ∈ exampleDisk.keys := Classical.not_not.mp fun hn => h ((Dict.get?_eq_none_iff _ _).mpr hn)
  have key : ∀ q ∈ exampleDisk.keys, (loc "t").isPrefixOf q = true → (q.drop 1).getLast? = some "description.yaml".toList →
      q.drop 1 = loc "books/starters/novel/description.yaml" := by decide +kernel
  have hd : (loc "t" ++ rel).drop 1 = rel := rfl
  have := key _ hm (List.isPrefixOf_iff_prefix.mpr (List.prefix_append _ _))
  rw [hd] at this
  exact this hl

example : AllDescribe asciiParse exampleDisk (loc "t") ∧ Flat exampleDisk (loc "t") ∧ CalledAs (loc "books") (loc "novel") "books/novel".toList := by
  refine ⟨fun rel h hl => ?_, ?_, by unfold CalledAs; decide +kernel⟩
  · rw [example_only rel h hl]
    exact ⟨_, _, _, example_describes, by decide +kernel⟩
  · intro rel t n text rel' t' n' text' h h' _
    have e : ∀ {rel t n text}, Describes exampleDisk (loc "t") rel t n text → rel = loc "books/starters/novel/description.yaml" := by
      intro rel t n text h
      exact example_only rel (by rw [h.file]; simp) (describes_last h)
    have := h.path.symm.trans ((e h).trans ((e h').symm.trans h'.path))
    exact (path_parts _ _ _ _ _ _ h.inTemplate.1 h'.inTemplate.1 this).1

theorem example_supplies (rel : Loc) (s : Str) (h : Supplies exampleDisk (loc "t/books/starters/novel") rel s) :
    rel = loc "src/a.dm" ∨ rel = loc "README" := by
  obtain ⟨h0, hg, hl⟩ := h
  have hm : loc "t/books/starters/novel" ++ rel ∈ exampleDisk.keys := Classical.not_not.mp fun hn => by
    rw [(Dict.get?_eq_none_iff _ _).mpr hn] at hg; cases hg
  have key : ∀ q ∈ exampleDisk.keys, (loc "t/books/starters/novel").isPrefixOf q = true → isFile exampleDisk q = true →
      q.drop 4 = loc "src/a.dm" ∨ q.drop 4 = loc "README" ∨ (q.drop 4).getLast? = some "description.yaml".toList := by decide +kernel
  have := key _ hm (List.isPrefixOf_iff_prefix.mpr (List.prefix_append _ _)) ((isFile_iff _ _).mpr ⟨s, hg⟩)
  have hd : (loc "t/books/starters/novel" ++ rel).drop 4 = rel := rfl
  rw [hd] at this
  rcases this with h | h | h
  · exact .inl h
  · exact .inr h
  · exact absurd h hl

example : Room exampleDisk (loc "t/books/starters/novel") (loc "home/p") ∧
    (∃ rel s, Supplies exampleDisk (loc "t/books/starters/novel") rel s) ∧ ¬ EmptyDir exampleDisk (loc "home") := by
  refine ⟨⟨?_, ?_, ?_, ?_⟩, ⟨loc "README", "read".toList, by decide +kernel, by decide +kernel, by decide +kernel⟩, ?_⟩
  · intro q hq t h
    have key : ∀ i ∈ List.range 3, isFile exampleDisk ((loc "home/p").take i) = false := by decide +kernel
    have := key q.length (List.mem_range.mpr (Nat.lt_succ_of_le hq.length_le))
    rw [← List.prefix_iff_eq_take.mp hq] at this
    rw [(isFile_iff _ _).mpr ⟨t, h⟩] at this; cases this
  · intro rel s hs q hq _ t h
    have key : ∀ r ∈ [loc "src/a.dm", loc "README"], ∀ i ∈ List.range (r.length + 1), isFile exampleDisk (loc "home/p" ++ r.take i) = false := by
      decide +kernel
    have := key rel (by rcases example_supplies rel s hs with rfl | rfl <;> simp) q.length (List.mem_range.mpr (Nat.lt_succ_of_le hq.length_le))
    rw [← List.prefix_iff_eq_take.mp hq] at this
    rw [(isFile_iff _ _).mpr ⟨t, h⟩] at this; cases this
  · intro rel s hs
    rcases example_supplies rel s hs with rfl | rfl <;> decide +kernel
  · intro rel s rel' s' hs hs'
    rcases example_supplies rel s hs with rfl | rfl <;> rcases example_supplies rel' s' hs' with rfl | rfl <;> decide +kernel
  · intro h
    have := h.2 "notes".toList
    revert this
    decide +kernel

end Verif.Starters
