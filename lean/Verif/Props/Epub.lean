import Verif.Lemmas.Epub
import Verif.Props.Scanner

/-!
# Properties of epub files

`sp` are the spaces; that `>`, `h` and `s` are none is all that is asked of them.
-/

namespace Verif.Epub

open Verif Verif.Paths Verif.Scanner Verif.Links

/-- C62. What an epub file has in it: `mimetype` first, the container, the package file, and then the files of the parameters and those
their pages link to, each once and each at the place of its path below its root. The package file lists the pages with the title and the
table of contents first, the images and the style sheets, with links to the places of the files. -/
theorem C62_archive (sp : Char → Bool) (hgt : sp '>' = false) (hh : sp 'h' = false) (hs : sp 's' = false) (files : Scanner.Files)
    (slug : Str → Str) (resolve : Path → Path) (stored : List Param) (hf : ∀ p, .path p ∈ stored → Fine p)
    (hall : ∀ p, .path p ∈ stored → ∀ root dir text, IsPage files p root dir text → ∃ names, Names sp text names)
    (entries : List (Str × Content)) (h : build sp files slug resolve stored = .ok entries) :
    IsEpub files (Names sp) slug resolve stored entries :=
  build_ok sp hgt hh hs files slug resolve stored hf hall entries h

/-- C62. If the files exist and every link of the pages leads to a file, there is an epub file. -/
theorem C62_success (sp : Char → Bool) (hgt : sp '>' = false) (hh : sp 'h' = false) (hs : sp 's' = false) (files : Scanner.Files)
    (slug : Str → Str) (resolve : Path → Path) (stored : List Param) (hf : ∀ p, .path p ∈ stored → Fine p)
    (hx : ∀ p, .path p ∈ stored → files p.full ≠ none) (hl : Epub.Linked files (Names sp) stored) :
    ∃ entries, build sp files slug resolve stored = .ok entries :=
  build_success sp hgt hh hs files slug resolve stored hf hx hl

/-- C62. Each file of the parameters is in the archive, under its own path or another one that is resolved to the same file. -/
theorem C62_complete (sp : Char → Bool) (hgt : sp '>' = false) (hh : sp 'h' = false) (hs : sp 's' = false) (files : Scanner.Files)
    (slug : Str → Str) (resolve : Path → Path) (stored : List Param) (hf : ∀ p, .path p ∈ stored → Fine p)
    (hall : ∀ p, .path p ∈ stored → ∀ root dir text, IsPage files p root dir text → ∃ names, Names sp text names)
    (entries : List (Str × Content)) (h : build sp files slug resolve stored = .ok entries) (p : PyPath) (hp : .path p ∈ stored) :
    ∃ n q, (n, .file q) ∈ entries ∧ resolve q.full = resolve p.full ∧ files q.full ≠ none := by
  cases build_ok sp hgt hh hs files slug resolve stored hf hall entries h with
  | mk ps pages ins xs a b c found pkg rest h1 h2 h3 h4 h5 h6 h7 h8 h9 h10 h11 h12 h13 =>
    rw [pathsOf_eq h1] at h4
    obtain ⟨q, hq, e⟩ := firstBy_all _ h4 p (List.mem_append.2 (.inl ((mem_paths _ _).2 hp)))
    obtain ⟨n, hn, -⟩ := written_mem h13 q hq
    exact ⟨n, q, by simp [hn], e, h5 q hq⟩

/-- C62. No file is in the archive twice. -/
theorem C62_once (sp : Char → Bool) (hgt : sp '>' = false) (hh : sp 'h' = false) (hs : sp 's' = false) (files : Scanner.Files)
    (slug : Str → Str) (resolve : Path → Path) (stored : List Param) (hf : ∀ p, .path p ∈ stored → Fine p)
    (hall : ∀ p, .path p ∈ stored → ∀ root dir text, IsPage files p root dir text → ∃ names, Names sp text names)
    (entries : List (Str × Content)) (h : build sp files slug resolve stored = .ok entries) (pre mid post : List (Str × Content)) (n m : Str)
    (p q : PyPath) (he : entries = pre ++ (n, .file p) :: mid ++ (m, .file q) :: post) : resolve p.full ≠ resolve q.full := by
  cases build_ok sp hgt hh hs files slug resolve stored hf hall entries h with
  | mk ps pages ins xs a b c found pkg rest h1 h2 h3 h4 h5 h6 h7 h8 h9 h10 h11 h12 h13 =>
    have hd := firstBy_distinct _ h4
    rw [written_order h13] at hd
    have key : rest.filterMap fileOf = (pre ++ (n, .file p) :: mid ++ (m, .file q) :: post).filterMap fileOf := by
      rw [← he]
      rfl
    rw [key] at hd
    simp only [List.filterMap_append, List.filterMap_cons, fileOf, List.append_assoc, List.cons_append, List.map_append, List.map_cons] at hd
    have := (List.nodup_append.1 hd).2.1
    rw [List.nodup_cons] at this
    intro e
    exact this.1 (by rw [e]; simp)

/-- C62. Each page, image in SVG and style sheet of the archive has an item in its list of the package file, and each item of the lists is
for a file of the archive. -/
theorem C62_listed (sp : Char → Bool) (hgt : sp '>' = false) (hh : sp 'h' = false) (hs : sp 's' = false) (files : Scanner.Files)
    (slug : Str → Str) (resolve : Path → Path) (stored : List Param) (hf : ∀ p, .path p ∈ stored → Fine p)
    (hall : ∀ p, .path p ∈ stored → ∀ root dir text, IsPage files p root dir text → ∃ names, Names sp text names)
    (entries : List (Str × Content)) (h : build sp files slug resolve stored = .ok entries) :
    ∃ pkg, ("xhtml/content.opf".toList, .package pkg) ∈ entries ∧
      ∀ t ∈ [(".xhtml".toList, pkg.xhtml), (".svg".toList, pkg.svg), (".css".toList, pkg.css)],
        (∀ n p, (n, .file p) ∈ entries → suffix p.full = t.1 → ∃ i ∈ t.2, ItemFor slug p i) ∧
        ∀ i ∈ t.2, ∃ n p, (n, .file p) ∈ entries ∧ suffix p.full = t.1 ∧ ItemFor slug p i := by
  cases build_ok sp hgt hh hs files slug resolve stored hf hall entries h with
  | mk ps pages ins xs a b c found pkg rest h1 h2 h3 h4 h5 h6 h7 h8 h9 h10 h11 h12 h13 =>
    refine ⟨pkg, by simp, ?_⟩
    have gen : ∀ (sfx : Str) (l : List PyPath) (items : List Item), OfType sfx xs l → ItemsFor slug l items →
        (∀ n p, ((n, .file p) : Str × Content) ∈ (("mimetype".toList, Content.mimetype) :: ("META-INF/container.xml".toList, .container) ::
          ("xhtml/content.opf".toList, .package pkg) :: rest) → suffix p.full = sfx → ∃ i ∈ items, ItemFor slug p i) ∧
        ∀ i ∈ items, ∃ n p, ((n, .file p) : Str × Content) ∈ (("mimetype".toList, Content.mimetype) ::
          ("META-INF/container.xml".toList, .container) :: ("xhtml/content.opf".toList, .package pkg) :: rest) ∧ suffix p.full = sfx ∧
          ItemFor slug p i := by
      intro sfx l items ht hi
      constructor
      · intro n p hp hsf
        simp only [List.mem_cons, Prod.mk.injEq, reduceCtorEq, and_false, false_or] at hp
        obtain ⟨q, hq, e⟩ := written_files h13 n _ hp
        cases e
        exact (itemsFor_mem hi).1 p ((ofType_mem ht p).2 ⟨(reading_mem h6 p).2 hq, hsf⟩)
      · intro i hi'
        obtain ⟨p, hp, e⟩ := (itemsFor_mem hi).2 i hi'
        obtain ⟨hp1, hp2⟩ := (ofType_mem ht p).1 hp
        obtain ⟨n, hn, -⟩ := written_mem h13 p ((reading_mem h6 p).1 hp1)
        exact ⟨n, p, by simp [hn], hp2, e⟩
    intro t ht
    simp only [List.mem_cons, List.not_mem_nil, or_false] at ht
    rcases ht with rfl | rfl | rfl
    · exact gen _ _ _ h7 h8
    · exact gen _ _ _ h9 h10
    · exact gen _ _ _ h11 h12

/-- C62. A link of a page to a file next to it or below or above it leads from the place of the page in the archive to the place of the
file, which is in the archive, if a file is below the roots at one place only and no links lead out of the roots. -/
theorem C62_links (sp : Char → Bool) (hgt : sp '>' = false) (hh : sp 'h' = false) (hs : sp 's' = false) (files : Scanner.Files)
    (slug : Str → Str) (resolve : Path → Path) (stored : List Param) (hf : ∀ p, .path p ∈ stored → Fine p)
    (hall : ∀ p, .path p ∈ stored → ∀ root dir text, IsPage files p root dir text → ∃ names, Names sp text names)
    (entries : List (Str × Content)) (h : build sp files slug resolve stored = .ok entries)
    (hin : ∀ p root sub, .path p ∈ stored → Tracked p root sub → ∃ e, Within [] sub.parts e)
    (hstay : Stay files (Names sp) stored) (hone : OnePlace resolve stored)
    (p : PyPath) (hp : .path p ∈ stored) (m0 : Str) (hm : (m0, .file p) ∈ entries) (root dir : Path) (text : Str)
    (hpage : IsPage files p root dir text) (ns : List Str) (hns : Names sp text ns) (n : Str) (hn : n ∈ ns)
    (hn1 : n.head? ≠ some '/') (hn2 : n.getLast? ≠ some '/') (hfile : files (div root (div dir (parse n))) ≠ none)
    (d e : List Str) (hd : Within ["xhtml".toList] dir.parts d) (he : Within d (parse n).parts e) :
    ∃ m q, (m, .file q) ∈ entries ∧ Slashed m e ∧ resolve q.full = resolve (div root (div dir (parse n))) := by
  cases build_ok sp hgt hh hs files slug resolve stored hf hall entries h with
  | mk ps pages ins xs a b c found pkg rest h1 h2 h3 h4 h5 h6 h7 h8 h9 h10 h11 h12 h13 =>
    simp only [List.mem_cons, Prod.mk.injEq, reduceCtorEq, and_false, false_or] at hm
    obtain ⟨p', hpin, e0⟩ := written_files h13 m0 _ hm
    cases e0
    have hps := pathsOf_eq h1
    subst hps
    have hpp := stored_page _ _ _ _ _ h2 h4 p ((mem_paths _ _).2 hp) hpin
    have hstored : ∀ p ∈ pages, Param.path p ∈ stored := fun p hp => (mem_paths _ _).1 ((firstBy_sublist _ h2).subset hp)
    obtain ⟨ns', hns', hlead⟩ := scanned_page h3 p hpp root dir text hpage
    have : ns' = ns := by rw [← names_stubs sp hgt hh hs text ns' hns', names_stubs sp hgt hh hs text ns hns]
    subst this
    obtain ⟨x, hx, hlx⟩ := hlead n hn
    -- The link leads to the file below the directory of the page.
    have hxe : x = ⟨root, div dir (parse n)⟩ := by
      have strip : ∀ a rel b : Str, n = a ++ rel ++ b → (∀ c ∈ a ++ b, c = '/') → rel = n := by
        intro a rel b e0 hc
        have ha : a = [] := by
          cases a with
          | nil => rfl
          | cons y a =>
            have := hc y (by simp)
            subst this
            exact absurd (by rw [e0]; rfl) hn1
        have hb : b = [] := by
          rcases List.eq_nil_or_concat b with rfl | ⟨b', y, rfl⟩
          · rfl
          · have := hc y (by simp)
            subst this
            exact absurd (by rw [e0, List.concat_eq_append, ← List.append_assoc, List.getLast?_concat]) hn2
        subst ha; subst hb
        simp only [List.nil_append, List.append_nil] at e0
        exact e0.symm
      cases hlx with
      | dir a b rel t e1 e2 e3 e4 e5 => rw [strip a rel b e1 e2]
      | root a b rel t e1 e2 e3 e4 e5 e6 =>
        rw [strip a rel b e1 e2] at e5
        exact absurd e5 hfile
    obtain ⟨ex, hex⟩ := hstay p root dir text ns' n x hp hpage hns hn hlx
    obtain ⟨q, hq, eq⟩ := firstBy_all _ h4 (.source x) (List.mem_append.2 (.inr (List.mem_map.2 ⟨x, hx, rfl⟩)))
    obtain ⟨m, hm', hsl⟩ := written_mem h13 q hq
    obtain ⟨g1, g2, g3⟩ := page_good files p (hf p hp).1 root dir text hpage
    obtain ⟨k1, k2, k3, k4⟩ := leads_good g1 g2 g3 hlx
    have root_tracked : ∀ p root dir text, IsPage files p root dir text → ∃ t, Tracked p root t := by
      intro p root dir text hp
      obtain ⟨-, -, ⟨s, rfl, rfl, rfl⟩ | ⟨t, rfl, rfl, rfl⟩⟩ := hp
      · exact ⟨_, .source _ _⟩
      · exact ⟨_, .target _ _ _⟩
    obtain ⟨t, ht⟩ := root_tracked p root dir text hpage
    have full_tracked : ∀ q r s, Fine q → Tracked q r s → q.full = div r s ∧ Good s ∧ s.abs = false := by
      intro q r s hfq htq
      cases htq with
      | source r s => exact ⟨rfl, hfq.1.2.1, hfq.1.2.2⟩
      | target r t s => exact ⟨rfl, hfq.1.2.2.1, hfq.1.2.2.2.1⟩
    -- Where the archived file is below its root.
    have hplace : ∃ p' r t s e', Param.path p' ∈ stored ∧ Tracked p' r t ∧ Tracked q r s ∧ Fine q ∧ Within [] s.parts e' := by
      rcases List.mem_append.1 ((firstBy_sublist _ h4).subset hq) with hq' | hq'
      · have hqs := (mem_paths _ _).1 hq'
        obtain ⟨r, s, hqt⟩ := (hf q hqs).2
        obtain ⟨e', he'⟩ := hin q r s hqs hqt
        exact ⟨q, r, s, s, e', hqs, hqt, hqt, hf q hqs, he'⟩
      · obtain ⟨y, hy, rfl⟩ := List.mem_map.1 hq'
        obtain ⟨p2, hp2, root2, dir2, text2, ns2, n2, i1, i2, i3, i4⟩ := scanned_mem h3 y hy
        obtain ⟨e', he'⟩ := hstay p2 root2 dir2 text2 ns2 n2 y (hstored p2 hp2) i1 i2 i3 i4
        obtain ⟨t2, ht2⟩ := root_tracked p2 root2 dir2 text2 i1
        have hfy := (found_fine h3 (fun p hp => hf p (hstored p hp)) y hy).1
        obtain ⟨c1, c2, c3⟩ := page_good files p2 (hf p2 (hstored p2 hp2)).1 root2 dir2 text2 i1
        obtain ⟨j1, -, -, -⟩ := leads_good c1 c2 c3 i4
        refine ⟨p2, root2, t2, y.sub, e', hstored p2 hp2, ht2, ?_, hfy, he'⟩
        rw [← j1]
        exact .source _ _
    obtain ⟨p', r, t', s, e', j1, j2, j3, j4, j5⟩ := hplace
    obtain ⟨l1, l2, l3⟩ := full_tracked q r s j4 j3
    have heq : e' = ex := by
      refine hone p' p r root t' t s x.sub e' ex j1 hp j2 ht l2 k2 l3 k3 ?_ j5 hex
      rw [← l1, eq]
      show resolve (div x.root x.sub) = _
      rw [k1]
    subst heq
    have hde : e = "xhtml".toList :: e' := by
      have hw := within_deeper ["xhtml".toList] [] _ _ hex
      have hsub : x.sub.parts = dir.parts ++ (parse n).parts := by
        rw [hxe]
        have hb : (parse n).abs = false := by simp only [parse, decide_eq_false_iff_not]; exact hn1
        show (div dir (parse n)).parts = _
        rw [div, hb]; rfl
      rw [hsub] at hw
      exact within_det _ _ _ _ (within_join _ _ _ _ _ hd he) hw
    refine ⟨m, q, by simp [hm'], hsl e (by rw [hde]; simp) ⟨r, s, j3, ?_⟩, by rw [eq, hxe]; rfl⟩
    rw [hde]
    exact within_deeper ["xhtml".toList] [] _ _ j5

/-- C62. In a project with one root, whose files are told apart by their places, a file is below the root at one place only. -/
theorem C62_one_root (resolve : Path → Path) (stored : List Param) (root : Path) (hroot : Good root)
    (hr : ∀ p r s, .path p ∈ stored → Tracked p r s → r = root) (hw : ∃ d, Within [] root.parts d)
    (hres : ∀ x y : Path, resolve x = resolve y → ∀ a b, Walk [] x.parts a → Walk [] y.parts b → a = b) : OnePlace resolve stored := by
  intro p p' r r' t t' s s' e e' hp hp' ht ht' hs hs' ha ha' heq hwe hwe'
  have h1 := hr p r t hp ht
  have h2 := hr p' r' t' hp' ht'
  subst h1; subst h2
  obtain ⟨d, hd⟩ := hw
  have gen : ∀ (s : Path) e, Good s → s.abs = false → Within [] s.parts e → Walk [] (div r' s).parts (d ++ e) := by
    intro s e hs ha hwe
    have hdiv : (div r' s).parts = r'.parts ++ s.parts := by rw [div, ha]; rfl
    rw [hdiv]
    have hdot : ∀ n ∈ r'.parts ++ s.parts, n ≠ ['.'] := by
      intro n hn
      rcases List.mem_append.1 hn with hn | hn
      · exact (hroot n hn).2.1
      · exact (hs n hn).2.1
    have := within_deeper d [] _ _ hwe
    rw [List.append_nil] at this
    exact within_walk _ _ _ hdot (within_join _ _ _ _ _ hd this)
  have := hres _ _ heq _ _ (gen s e hs ha hwe) (gen s' e' hs' ha' hwe')
  exact List.append_cancel_left this

/-- C62. The items of the package file have different identifiers, if different texts have different slugs, none of them `toc`, the files
of the archive are at different places, and one of them at most is a table of contents. -/
theorem C62_ids (sp : Char → Bool) (hgt : sp '>' = false) (hh : sp 'h' = false) (hs : sp 's' = false) (files : Scanner.Files)
    (slug : Str → Str) (resolve : Path → Path) (stored : List Param) (hf : ∀ p, .path p ∈ stored → Fine p)
    (hall : ∀ p, .path p ∈ stored → ∀ root dir text, IsPage files p root dir text → ∃ names, Names sp text names)
    (entries : List (Str × Content)) (h : build sp files slug resolve stored = .ok entries)
    (hinj : ∀ a b, slug a = slug b → a = b) (htoc : ∀ a, slug a ≠ "toc".toList)
    (hplace : ∀ n p, (n, .file p) ∈ entries → ∃ e, Place p e)
    (hdiff : ∀ n m p q e, (n, .file p) ∈ entries → (m, .file q) ∈ entries → Place p e → Place q e → p = q)
    (hone : ∀ n m p q, (n, .file p) ∈ entries → (m, .file q) ∈ entries → Named p "toc.xhtml" → Named q "toc.xhtml" → p = q)
    (n : Str) (pkg : Package) (hpkg : (n, .package pkg) ∈ entries) :
    ((pkg.xhtml ++ pkg.svg ++ pkg.css).map Item.id).Nodup := by
  cases build_ok sp hgt hh hs files slug resolve stored hf hall entries h with
  | mk ps pages ins xs a b c found pkg' rest h1 h2 h3 h4 h5 h6 h7 h8 h9 h10 h11 h12 h13 =>
    have hpkg' : pkg = pkg' := by
      simp only [List.mem_cons, Prod.mk.injEq, reduceCtorEq, and_false, false_or, Content.package.injEq] at hpkg
      rcases hpkg with ⟨-, e⟩ | hpkg
      · exact e
      · obtain ⟨p, -, e⟩ := written_files h13 _ _ hpkg
        cases e
    subst hpkg'
    have hin : ∀ p ∈ xs, ∃ n, ((n, .file p) : Str × Content) ∈ (("mimetype".toList, Content.mimetype) ::
        ("META-INF/container.xml".toList, .container) :: ("xhtml/content.opf".toList, .package pkg) :: rest) := by
      intro p hp
      obtain ⟨n, hn, -⟩ := written_mem h13 p ((reading_mem h6 p).1 hp)
      exact ⟨n, by simp [hn]⟩
    have hins : ins.Nodup := by
      have := firstBy_distinct _ h4
      exact nodup_of_map _ _ this
    have hxs := reading_nodup hins h6
    have hmem : ∀ p ∈ a ++ b ++ c, p ∈ xs := by
      intro p hp
      rcases List.mem_append.1 hp with hp | hp
      · rcases List.mem_append.1 hp with hp | hp
        · exact (ofType_sublist h7).subset hp
        · exact (ofType_sublist h9).subset hp
      · exact (ofType_sublist h11).subset hp
    refine items_nodup (itemsFor_append (itemsFor_append h8 h10) h12) ?_ ?_
    · refine List.nodup_append.2 ⟨List.nodup_append.2 ⟨hxs.sublist (ofType_sublist h7), hxs.sublist (ofType_sublist h9), ?_⟩,
        hxs.sublist (ofType_sublist h11), ?_⟩
      · intro p hp q hq e
        subst e
        have e1 := ((ofType_mem h7 p).1 hp).2
        rw [((ofType_mem h9 p).1 hq).2] at e1
        exact absurd e1 (by decide)
      · intro p hp q hq e
        subst e
        have e1 := ((ofType_mem h11 p).1 hq).2
        rcases List.mem_append.1 hp with hp | hp
        · rw [((ofType_mem h7 p).1 hp).2] at e1
          exact absurd e1 (by decide)
        · rw [((ofType_mem h9 p).1 hp).2] at e1
          exact absurd e1 (by decide)
    · intro p hp q hq i j hi hj e
      obtain ⟨n1, hn1⟩ := hin p (hmem p hp)
      obtain ⟨n2, hn2⟩ := hin q (hmem q hq)
      rcases same_id hinj htoc hi hj e with ⟨t1, t2⟩ | hpl
      · exact hone n1 n2 p q hn1 hn2 t1 t2
      · obtain ⟨e1, he1⟩ := hplace n1 p hn1
        obtain ⟨e2, he2⟩ := hplace n2 q hn2
        have := hpl e1 e2 he1 he2
        subst this
        exact hdiff n1 n2 p q e1 hn1 hn2 he1 he2

/-- C62. A builder is not made without a table of contents. -/
theorem C62_needs_toc (slug : Str → Str) (resolve : Path → Path) (stored : List Param) (hf : ∀ p, .path p ∈ stored → Fine p)
    (hres : ∀ p q, .path p ∈ stored → .path q ∈ stored → resolve p.full = resolve q.full → Named p "toc.xhtml" → Named q "toc.xhtml") :
    create slug resolve stored = .error .assertion ↔ ∀ p, .path p ∈ stored → ¬ Named p "toc.xhtml" := by
  have hfb := firstBy_uniq (real resolve) (paths stored)
  have hany : ((Lists.uniq (real resolve) (paths stored)).any fun p => name p.full = "toc.xhtml".toList) = true ↔
      ∃ p, .path p ∈ stored ∧ Named p "toc.xhtml" := by
    rw [List.any_eq_true]
    constructor
    · rintro ⟨p, hp, h⟩
      exact ⟨p, (mem_paths _ _).1 ((firstBy_sublist _ hfb).subset hp), (named_iff p _ (by decide)).2 (of_decide_eq_true h)⟩
    · rintro ⟨p, hp, h⟩
      obtain ⟨q, hq, e⟩ := firstBy_all _ hfb p ((mem_paths _ _).2 hp)
      have hq' := (mem_paths _ _).1 ((firstBy_sublist _ hfb).subset hq)
      exact ⟨q, hq, decide_eq_true ((named_iff q _ (by decide)).1 (hres p q hp hq' e.symm h))⟩
  unfold create
  rw [paths_parameters]
  constructor
  · intro h p hp hn
    rw [if_pos (hany.2 ⟨p, hp, hn⟩)] at h
    obtain ⟨pkg, _, _, _, _, g0, -⟩ := package_ok slug (Lists.uniq (real resolve) (paths stored))
      (fun p hp => hf p ((mem_paths _ _).1 ((firstBy_sublist _ hfb).subset hp)))
    rw [g0] at h
    cases h
  · intro h
    rw [if_neg]
    intro hc
    obtain ⟨p, hp, hn⟩ := hany.1 hc
    exact h p hp hn

/-- C62. The parameters for the documents of a project have each output file of the four types, and a table of contents. -/
theorem C62_documents (cache : Path) (docs deps : List PyPath) :
    (∀ p ∈ docs ++ deps, (∃ s ∈ [".css", ".svg", ".png", ".xhtml"], suffix p.full = s.toList) →
      ∃ q, .path q ∈ epubParameters cache docs deps ∧ q.full = p.full) ∧
    ∃ q, .path q ∈ epubParameters cache docs deps ∧ Named q "toc.xhtml" := by
  have hno : hasToc (xhtmlFilepaths docs deps) = false := by simp [hasToc]
  unfold epubParameters
  simp only [hno]
  constructor
  · rintro p hp ⟨s, hs, e⟩
    have hfb := firstBy_uniq PyPath.full
      ((docs ++ deps).filter fun p => suffix p.full ∈ [".css".toList, ".svg".toList, ".png".toList, ".xhtml".toList])
    obtain ⟨q, hq, e'⟩ := firstBy_all _ hfb p (List.mem_filter.2 ⟨hp, by
      rw [decide_eq_true_iff, e]
      exact List.mem_map.2 ⟨s, hs, rfl⟩⟩)
    refine ⟨q, List.mem_map.2 ⟨q, ?_, rfl⟩, e'⟩
    simp only [Bool.false_eq_true, if_false]
    exact List.mem_append.2 (.inl hq)
  · refine ⟨.target ⟨cache, parse "xhtml".toList, parse "toc.xhtml".toList⟩, List.mem_map.2 ⟨_, ?_, rfl⟩, ?_⟩
    · simp
    · unfold Named
      have : (PyPath.target ⟨cache, parse "xhtml".toList, parse "toc.xhtml".toList⟩).full =
          div (div cache (parse "xhtml".toList)) (parse "toc.xhtml".toList) := rfl
      rw [this]
      have h2 : parse "toc.xhtml".toList = ⟨false, ["toc.xhtml".toList]⟩ := by decide
      rw [h2, div]
      simp

section Examples

/-- A slug that tells texts apart. -/
def prefixed (s : Str) : Str := 'x' :: s

def chapter : PyPath := .target ⟨parse "/b".toList, parse "xhtml".toList, parse "ch/1.xhtml".toList⟩

def title : PyPath := .target ⟨parse "/b".toList, parse "xhtml".toList, parse "title.xhtml".toList⟩

def toc : PyPath := .target ⟨parse "/b".toList, parse "xhtml".toList, parse "toc.xhtml".toList⟩

def book : Scanner.Files := fun p =>
  if p = parse "/b/xhtml/ch/1.xhtml".toList then some "<p><link href=\"a.css\"></p>".toList
  else if p = parse "/b/xhtml/ch/a.css".toList then some []
  else if p = parse "/b/xhtml/toc.xhtml".toList then some []
  else if p = parse "/b/xhtml/title.xhtml".toList then some [] else none

def bookParams : List Param := [.path chapter, .value "x".toList, .path toc, .path title, .path chapter]

def style : PyPath := .source ⟨parse "/b/xhtml".toList, parse "ch/a.css".toList⟩

def bookEntries : List (Str × Content) :=
  [("mimetype".toList, .mimetype), ("META-INF/container.xml".toList, .container),
   ("xhtml/content.opf".toList, .package ⟨[⟨"xtitle.xhtml".toList, "title.xhtml".toList, false⟩, ⟨"toc".toList, "toc.xhtml".toList, true⟩,
      ⟨"xch/1.xhtml".toList, "ch/1.xhtml".toList, false⟩], [], [⟨"xch/a.css".toList, "ch/a.css".toList, false⟩]⟩),
   ("xhtml/ch/1.xhtml".toList, .file chapter), ("xhtml/toc.xhtml".toList, .file toc), ("xhtml/title.xhtml".toList, .file title),
   ("xhtml/ch/a.css".toList, .file style)]

set_option maxRecDepth 40000 in
/-- The epub file of a book: a chapter with a style sheet, a table of contents and a title. -/
theorem book_build : build space book prefixed id bookParams = .ok bookEntries := by rfl

theorem book_params (p : PyPath) (h : .path p ∈ bookParams) : p = chapter ∨ p = toc ∨ p = title := by
  simp only [bookParams, List.mem_cons, List.not_mem_nil, or_false, Param.path.injEq, reduceCtorEq, false_or] at h
  rcases h with h | h | h | h
  · exact .inl h
  · exact .inr (.inl h)
  · exact .inr (.inr h)
  · exact .inl h

theorem book_fine (p : PyPath) (h : .path p ∈ bookParams) : Fine p := by
  have hclean : CleanTarget (parse "xhtml".toList) := ⟨rfl, .inr (by decide)⟩
  have gen : ∀ s : Str, (parse s).abs = false → Fine (.target ⟨parse "/b".toList, parse "xhtml".toList, parse s⟩) := fun s hs =>
    ⟨⟨parse_good _, parse_good _, parse_good _, hs, hclean⟩, _, _, .target _ _ _⟩
  rcases book_params p h with rfl | rfl | rfl
  · exact gen _ (by decide)
  · exact gen _ (by decide)
  · exact gen _ (by decide)

theorem names_nil : Names space [] [] :=
  ⟨[], [], .text _ (fun h => absurd ((contains_iff _ _).2 h) (by decide)), .text _ (fun h => absurd ((contains_iff _ _).2 h) (by decide)), .nil⟩

set_option maxRecDepth 20000 in
theorem book_pages (p : PyPath) (h : .path p ∈ bookParams) (root dir : Path) (text : Str) (hp : IsPage book p root dir text) :
    root = parse "/b/xhtml".toList ∧ ((dir = parse "ch".toList ∧ text = "<p><link href=\"a.css\"></p>".toList) ∨ text = []) := by
  obtain ⟨-, h1, h2⟩ := hp
  rcases book_params p h with rfl | rfl | rfl
  · rcases h2 with ⟨s, e, -⟩ | ⟨t, e, rfl, rfl⟩
    · cases e
    · cases e
      exact ⟨by decide, .inl ⟨by decide, (Option.some.inj (h1.symm.trans (by decide : book chapter.full = some _)))⟩⟩
  · rcases h2 with ⟨s, e, -⟩ | ⟨t, e, rfl, rfl⟩
    · cases e
    · cases e
      exact ⟨by decide, .inr (Option.some.inj (h1.symm.trans (by decide : book toc.full = some [])))⟩
  · rcases h2 with ⟨s, e, -⟩ | ⟨t, e, rfl, rfl⟩
    · cases e
    · cases e
      exact ⟨by decide, .inr (Option.some.inj (h1.symm.trans (by decide : book title.full = some [])))⟩

theorem book_names (p : PyPath) (h : .path p ∈ bookParams) (root dir : Path) (text : Str) (hp : IsPage book p root dir text) :
    ∃ ns, Names space text ns := by
  rcases (book_pages p h root dir text hp).2 with ⟨-, rfl⟩ | rfl
  · exact ⟨_, names_example⟩
  · exact ⟨_, names_nil⟩

/-- The hypotheses of the theorems hold of the book. -/
example : IsEpub book (Names space) prefixed id bookParams bookEntries :=
  C62_archive space rfl rfl rfl book prefixed id bookParams book_fine book_names _ book_build

set_option maxRecDepth 20000 in
example : Epub.Linked book (Names space) bookParams := by
  intro p root dir text h hp
  obtain ⟨rfl, ⟨rfl, rfl⟩ | rfl⟩ := book_pages p h root dir text hp
  · refine ⟨_, names_example, ?_⟩
    intro n hn
    rw [List.mem_singleton] at hn
    subst hn
    exact ⟨_, .dir [] [] "a.css".toList [] (by decide) (by decide) (by decide) (by decide) (by decide)⟩
  · exact ⟨_, names_nil, by simp⟩

/-- The only link of the book. -/
theorem book_link (p : PyPath) (root dir : Path) (text : Str) (ns : List Str) (n : Str) (x : SourcePath) (h : .path p ∈ bookParams)
    (hp : IsPage book p root dir text) (hns : Names space text ns) (hn : n ∈ ns) (hx : LeadsTo book root dir n x) :
    x.sub = parse "ch/a.css".toList := by
  obtain ⟨rfl, ⟨rfl, rfl⟩ | rfl⟩ := book_pages p h root dir text hp
  · have : ns = ["a.css".toList] := by
      rw [← names_stubs space rfl rfl rfl _ ns hns, names_stubs space rfl rfl rfl _ _ names_example]
    subst this
    rw [List.mem_singleton] at hn
    subst hn
    have strip : ∀ a rel b : Str, "a.css".toList = a ++ rel ++ b → (∀ c ∈ a ++ b, c = '/') → rel = "a.css".toList := by
      intro a rel b e hc
      have hno : ∀ c ∈ a ++ b, c ∈ "a.css".toList := by
        intro c h
        rw [e]
        rcases List.mem_append.1 h with h | h <;> simp [h]
      have ha : a = [] ∧ b = [] := by
        constructor
        · cases a with
          | nil => rfl
          | cons y a =>
            have h1 := hc y (by simp)
            subst h1
            exact absurd (hno '/' (by simp)) (by decide)
        · cases b with
          | nil => rfl
          | cons y b =>
            have h1 := hc y (by simp)
            subst h1
            exact absurd (hno '/' (by simp)) (by decide)
      rw [ha.1, ha.2] at e
      simp only [List.nil_append, List.append_nil] at e
      exact e.symm
    cases hx with
    | dir a b rel t e1 e2 e3 e4 e5 => rw [strip a rel b e1 e2]; decide
    | root a b rel t e1 e2 e3 e4 e5 e6 =>
      rw [strip a rel b e1 e2] at e5
      exact absurd e5 (by decide)
  · have : ns = [] := by
      rw [← names_stubs space rfl rfl rfl _ ns hns, names_stubs space rfl rfl rfl _ _ names_nil]
    subst this
    cases hn

theorem within_down (d l : List Str) (h : ∀ n ∈ l, n ≠ ['.', '.']) : Within d l (d ++ l) := by
  induction l generalizing d with
  | nil => rw [List.append_nil]; exact .here d
  | cons n l ih =>
    refine .down n (h n (by simp)) ?_
    have := ih (d ++ [n]) (fun m hm => h m (by simp [hm]))
    rwa [List.append_assoc] at this

/-- The link of the chapter leads to its style sheet in the archive. -/
example : ∃ m q, (m, .file q) ∈ bookEntries ∧ Slashed m ["xhtml".toList, "ch".toList, "a.css".toList] ∧
    q.full = div (parse "/b/xhtml".toList) (div (parse "ch".toList) (parse "a.css".toList)) := by
  refine C62_links space rfl rfl rfl book prefixed id bookParams book_fine book_names _ book_build ?_ ?_ ?_ chapter (by decide)
    "xhtml/ch/1.xhtml".toList (by decide) (parse "/b/xhtml".toList) (parse "ch".toList) _
    ⟨⟨".xhtml".toList, by simp, by decide⟩, (by decide : book chapter.full = some _), .inr ⟨_, rfl, by decide, by decide⟩⟩ _ names_example
    "a.css".toList (by decide) (by decide) (by decide) (by decide) ["xhtml".toList, "ch".toList] _
    (.down _ (by decide) (.here _)) (.down _ (by decide) (.here _))
  · intro p root sub hp ht
    have : ∀ n ∈ sub.parts, n ≠ ['.', '.'] := by
      rcases book_params p hp with rfl | rfl | rfl <;> cases ht <;> decide
    exact ⟨_, within_down [] _ this⟩
  · intro p root dir text ns n x h1 h2 h3 h4 h5
    have := book_link p root dir text ns n x h1 h2 h3 h4 h5
    rw [this]
    exact ⟨_, within_down [] _ (by decide)⟩
  · refine C62_one_root id bookParams (parse "/b/xhtml".toList) (parse_good _) ?_ ⟨_, within_down [] _ (by decide)⟩ ?_
    · intro p r s hp ht
      rcases book_params p hp with rfl | rfl | rfl <;> cases ht <;> decide
    · intro x y e a b ha hb
      simp only [id] at e
      subst e
      exact ha.det hb

/-- Finding: a table of contents of the documents is not noticed, a second one is added, and the archive has two files of one name
and two items with the identifier `toc`. -/
theorem C62_two_tocs : ∃ (files : Scanner.Files) (pkg : Package) (rest : List (Str × Content)),
    build space files prefixed id (epubParameters (parse "/c".toList) [toc] []) = .ok (("mimetype".toList, .mimetype) ::
      ("META-INF/container.xml".toList, .container) :: ("xhtml/content.opf".toList, .package pkg) :: rest) ∧
    pkg.xhtml.map Item.id = ["toc".toList, "toc".toList] ∧ rest.map Prod.fst = ["xhtml/toc.xhtml".toList, "xhtml/toc.xhtml".toList] :=
  ⟨fun _ => some [], _, _, by rfl, by decide, by decide⟩

/-- Finding: an image in PNG is in the archive but not in the manifest of the package file. -/
theorem C62_png : ∃ (files : Scanner.Files) (pkg : Package) (rest : List (Str × Content)) (p : PyPath),
    build space files prefixed id [.path p] = .ok (("mimetype".toList, .mimetype) :: ("META-INF/container.xml".toList, .container) ::
      ("xhtml/content.opf".toList, .package pkg) :: rest) ∧ rest = [("xhtml/1.png".toList, .file p)] ∧
    pkg = ⟨[], [], []⟩ :=
  ⟨fun _ => some [], _, _, .source ⟨parse "/b".toList, parse "1.png".toList⟩, by rfl, by rfl, by rfl⟩

/-- Finding: two files with the same path below different roots have one name in the archive. -/
theorem C62_same_place : ∃ (files : Scanner.Files) (pkg : Package) (rest : List (Str × Content)) (p q : PyPath), p.full ≠ q.full ∧
    build space files prefixed id [.path p, .path q] = .ok (("mimetype".toList, .mimetype) :: ("META-INF/container.xml".toList, .container) ::
      ("xhtml/content.opf".toList, .package pkg) :: rest) ∧ rest = [("xhtml/a.css".toList, .file p), ("xhtml/a.css".toList, .file q)] :=
  ⟨fun _ => some [], _, _, .source ⟨parse "/b".toList, parse "a.css".toList⟩, .source ⟨parse "/c".toList, parse "a.css".toList⟩, by decide,
    by rfl, by rfl⟩

/-- Finding: a plain path is written outside of the directory `xhtml` if it is absolute, and a plain page is an error. -/
theorem C62_plain : (∃ (files : Scanner.Files) (pkg : Package),
    build space files prefixed id [.path (.plain (parse "/b/1.png".toList))] = .ok [("mimetype".toList, .mimetype),
      ("META-INF/container.xml".toList, .container), ("xhtml/content.opf".toList, .package pkg),
      ("b/1.png".toList, .file (.plain (parse "/b/1.png".toList)))]) ∧
    ∀ files, build space files prefixed id [.path (.plain (parse "a.css".toList))] = .error .attribute :=
  ⟨⟨fun _ => some [], _, by rfl⟩, fun _ => by rfl⟩

end Examples

end Verif.Epub
