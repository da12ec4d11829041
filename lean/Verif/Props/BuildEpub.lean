import Verif.Lemmas.BuildEpub
import Verif.Props.Build

/-!
# C82: when the archive of an epub is written

The theorems are about `Project.buildPack`, for any builders, any times at which commands end, any exit codes, and any number of rounds.
-/

namespace Verif.Build

open Verif Verif.Decider Verif.Builder

variable {P : Project} {b : Packs} {F : FS → Prop} {e opf : Nat} {page archive : Step}

theorem put__fs (s : Step) (w : World) : (P.put_ s w).fs = put w.fs s.out (some (s.result w.fs)) := by
  unfold Project.put_
  simp only [Project.stepRecord]
  cases P.cfg.buildNeeded (put w.fs s.out (some (s.result w.fs))) w.db s.inputs (.path s.out) true <;> rfl

theorem allIn_of {fs : FS} {s : Step} (h : ¬ s.parameters.any (missing fs) = true) : AllIn fs s := by
  intro p hp hn
  apply h
  rw [List.any_eq_true]
  exact ⟨_, hp, by simp [missing, hn]⟩

theorem written_current {fs : FS} {s : Step} (h : AllIn fs s) (ho : Item.path s.out ∉ s.parameters) :
    Current (put fs s.out (some (s.result fs))) s := by
  have hself : Agree (put fs s.out (some (s.result fs))) fs s := by
    intro p hp
    have : p ≠ s.out := fun h => ho (h ▸ hp)
    simp [put, this]
  rw [current_iff]
  refine ⟨fun p hp => by rw [hself p hp]; exact h p hp, ?_⟩
  rw [result_congr hself]
  simp [put]

theorem current_put {fs : FS} {s : Step} {p : Str} {y : Option Bytes} (h : Current fs s) (h1 : p ≠ s.out) (h2 : Item.path p ∉ s.parameters) :
    Current (put fs p y) s := by
  rw [current_iff] at h ⊢
  have hag : Agree (put fs p y) fs s := by
    intro q hq
    have : q ≠ p := fun hh => h2 (hh ▸ hq)
    simp [put, this]
  refine ⟨fun q hq => by rw [hag q hq]; exact h.1 q hq, ?_⟩
  rw [result_congr hag, ← h.2]
  simp [put, Ne.symm h1]

/-- **C82.** When the builder of an epub has built it without an exception, the archive is made from the package file and the pages that
there are, and the package file is what is rendered from its parameters. -/
theorem C82_packed (hb : b e = some ⟨opf, archive⟩) (hr : P.node opf = some (.step page)) (h1 : Item.path page.out ∉ page.parameters)
    (h2 : Item.path archive.out ∉ archive.parameters) (h3 : archive.out ≠ page.out) (h4 : Item.path archive.out ∉ page.parameters)
    (depth : Nat) (w : World) (g : Group) (hg : P.node e = some (.group g)) (hok : ((P.opsPack b depth).build e w).1 = .ok ()) :
    Current ((P.opsPack b depth).build e w).2.fs archive ∧ Current ((P.opsPack b depth).build e w).2.fs page := by
  cases depth with
  | zero => cases hok
  | succ k =>
    simp only [Project.opsPack, hg] at hok ⊢
    generalize onSubs e (Builder.build (P.subsOf (P.opsPack b k) e g) g.parallel g.clear) w = q at hok ⊢
    obtain ⟨r, w1⟩ := q
    cases r with
    | error er => cases hok
    | ok st =>
      simp only [hb, Project.pack, hr] at hok ⊢
      by_cases hm : page.parameters.any (missing w1.fs) = true
      · rw [if_pos hm] at hok; cases hok
      · rw [if_neg hm] at hok ⊢
        have hc := written_current (allIn_of hm) h1
        rw [← put__fs (P := P)] at hc
        generalize P.put_ page w1 = w2 at hok hc ⊢
        by_cases hm2 : archive.parameters.any (missing w2.fs) = true
        · rw [if_pos hm2] at hok; cases hok
        · rw [if_neg hm2]
          simp only [put__fs]
          exact ⟨written_current (allIn_of hm2) h2, current_put hc h3 h4⟩

/-- **C82.** As long as the package file is recorded as made from its parameters, no build writes the archive, whatever the pages are. -/
theorem C82_kept (hp : Packing P b F e opf page archive) (depth root rounds : Nat) (hr : root ≠ e) (w : World) (hf : F w.fs)
    (hn : New w) (hs : w.subs e = [opf]) (k o : Bytes) (hd : Digests P.cfg w.fs page k o) (hdb : w.db.get? k = some o) :
    (P.buildPack b depth root rounds w).2.fs archive.out = w.fs archive.out :=
  (buildPack_still (x := w.fs archive.out) hp depth root rounds hr w
    { files := hf
      done := ⟨k, o, hd, hdb⟩
      kept := rfl
      subs := .inl hs
      idle := by rw [(hn opf).1]; rfl
      running := fun i s _ h => by rw [(hn i).1] at h; cases h }).kept

/-! ### An example: an epub of one page -/

def lighter (bs : List Bytes) : Bytes := bs.flatten.map (· / 2)

def chapter : Step := ⟨[.path "doc.dm".toList], [201], "doc.xhtml".toList, lighter, true⟩
def contentsPage : Step := ⟨[.path "toc.tpl".toList], [202], "toc.xhtml".toList, lighter, true⟩
def opfStep : Step := ⟨[.path "opf.tpl".toList], [203], "content.opf".toList, lighter, true⟩
def lastCopy : Step := ⟨[.path "doc.epub".toList], [204], "final.epub".toList, fun bs => bs.headD [], true⟩
def zipped : Step := ⟨[.path "content.opf".toList, .path "doc.xhtml".toList, .path "toc.xhtml".toList], [205], "doc.epub".toList,
  fun bs => bs.flatten, true⟩

/-- The root builder, the builder of the target, a page, the table of contents, the `XHtml2Epub`, its package file, and the copy. -/
def ebook : Project where
  cfg := tiny
  node
    | 0 => some (.group ⟨true, true, [], .other []⟩)
    | 1 => some (.group ⟨false, false, [.path "doc.dm".toList, .other [206]], .path "final.epub".toList⟩)
    | 2 => some (.step chapter)
    | 3 => some (.step contentsPage)
    | 4 => some (.group ⟨false, true, [.path "doc.xhtml".toList, .path "toc.xhtml".toList, .other [205]], .path "doc.epub".toList⟩)
    | 5 => some (.step opfStep)
    | 6 => some (.step lastCopy)
    | _ => none
  ends := fun _ => []

def ebookPacks : Packs
  | 4 => some ⟨5, zipped⟩
  | _ => none

def ebookSubs : Nat → List Nat
  | 0 => [1]
  | 1 => [2, 3, 4, 6]
  | 4 => [5]
  | _ => []

def shelf (fs : FS) (db : Dict Bytes Bytes) : World := ⟨fs, db, fun _ => .new, fun _ => [], fun _ => 0, ebookSubs, 0⟩

theorem shelf_new (fs : FS) (db : Dict Bytes Bytes) : New (shelf fs db) := fun _ => ⟨rfl, rfl⟩
theorem shelf_eq (fs : FS) (db : Dict Bytes Bytes) : (shelf fs db).fs = fs ∧ (shelf fs db).db = db ∧ (shelf fs db).subs = ebookSubs :=
  ⟨rfl, rfl, rfl⟩

/-- A document of one byte, and the templates. -/
def manuscript (x : UInt8) (fs : FS) : FS := fun p =>
  if p = "doc.dm".toList then some [x] else if p = "toc.tpl".toList then some [8] else if p = "opf.tpl".toList then some [6] else fs p

/-- An epub is built, the document is edited, and it is built again. -/
def printed : Option (Except Builder.Err Status) × World := ebook.buildPack ebookPacks 5 0 20 (shelf (manuscript 100 fun _ => none) [])
def reprinted : Option (Except Builder.Err Status) × World :=
  ebook.buildPack ebookPacks 5 0 20 (shelf (manuscript 50 printed.2.fs) printed.2.db)

theorem printed_eq : printed.1 = some (.ok .done) ∧ printed.2.fs "doc.xhtml".toList = some [50] ∧
    printed.2.fs "final.epub".toList = some [3, 50, 4] := by decide +kernel

theorem reprinted_eq : reprinted.1 = some (.ok .done) ∧ reprinted.2.fs "doc.xhtml".toList = some [25] ∧
    reprinted.2.fs "toc.xhtml".toList = some [4] ∧ reprinted.2.fs "content.opf".toList = some [3] ∧
    reprinted.2.fs "doc.epub".toList = some [3, 50, 4] ∧ reprinted.2.fs "final.epub".toList = some [3, 50, 4] := by decide +kernel

def lowBytes (fs : FS) : Prop := ∀ p c, fs p = some c → ∀ y ∈ c, y < 200

theorem mem_insertBytes (a c : Bytes) (l : List Bytes) : c ∈ insertBytes a l ↔ c = a ∨ c ∈ l := by
  induction l with
  | nil => simp [insertBytes]
  | cons d l ih =>
    unfold insertBytes
    split
    · simp
    · simp only [List.mem_cons, ih]
      constructor
      · rintro (h | h | h)
        · exact .inr (.inl h)
        · exact .inl h
        · exact .inr (.inr h)
      · rintro (h | h | h)
        · exact .inr (.inl h)
        · exact .inl h
        · exact .inr (.inr h)

theorem mem_sortBytes (c : Bytes) (l : List Bytes) : c ∈ sortBytes l ↔ c ∈ l := by
  induction l with
  | nil => simp [sortBytes]
  | cons d l ih => simp [sortBytes, mem_insertBytes, ih]

/-- The bytes of a digest are those of the files and the others. -/
theorem tiny_mem {fs : FS} (hf : lowBytes fs) {ps : List Str} {a : UInt8} {k : Bytes}
    (h : tiny.hashItems fs (ps.map .path ++ [.other [a]]) = some k) (y : UInt8) (hy : ¬ y < 200) : y ∈ k ↔ y = a := by
  unfold Cfg.hashItems at h
  cases hm : (ps.map Item.path ++ [Item.other [a]]).mapM (tiny.fed fs) with
  | none => rw [hm] at h; cases h
  | some bs =>
    rw [hm] at h
    have hk : k = (sortBytes bs).flatten := by
      injection h with h
      rw [← h]
      show (sortBytes (bs.map id)).flatten = _
      rw [List.map_id]
    subst hk
    have hbs : ∀ (ps : List Str) (bs : List Bytes), (ps.map Item.path ++ [Item.other [a]]).mapM (tiny.fed fs) = some bs →
        ((∃ c ∈ bs, y ∈ c) ↔ y = a) := by
      intro ps
      induction ps with
      | nil =>
        intro bs hm
        simp only [List.map_nil, List.nil_append, List.mapM_cons, List.mapM_nil, Cfg.fed] at hm
        injection hm with hm
        subst hm
        simp
      | cons p ps ih =>
        intro bs hm
        simp only [List.map_cons, List.cons_append, List.mapM_cons] at hm
        cases hc : tiny.fed fs (.path p) with
        | none => rw [hc] at hm; cases hm
        | some c =>
          cases hr : (ps.map Item.path ++ [Item.other [a]]).mapM (tiny.fed fs) with
          | none => rw [hc, hr] at hm; cases hm
          | some cs =>
            rw [hc, hr] at hm
            have hm : some (c :: cs) = some bs := hm
            injection hm with hm
            subst hm
            have hyc : y ∉ c := by
              intro hyc
              cases hp : fs p with
              | none => simp [Cfg.fed, hp] at hc
              | some d =>
                simp [Cfg.fed, hp, tiny, fileFed] at hc
                subst hc
                exact hy (hf p _ hp y hyc)
            rw [← ih cs hr]
            constructor
            · rintro ⟨d, hd, hyd⟩
              rcases List.mem_cons.1 hd with rfl | hd
              · exact absurd hyd hyc
              · exact ⟨d, hd, hyd⟩
            · rintro ⟨d, hd, hyd⟩
              exact ⟨d, .tail _ hd, hyd⟩
    rw [← hbs ps bs hm]
    rw [List.mem_flatten]
    constructor
    · rintro ⟨c, hc, hyc⟩; exact ⟨c, (mem_sortBytes c bs).1 hc, hyc⟩
    · rintro ⟨c, hc, hyc⟩; exact ⟨c, (mem_sortBytes c bs).2 hc, hyc⟩

theorem ebook_step {i : Nat} {s : Step} (h : ebook.node i = some (.step s)) :
    (i = 2 ∧ s = chapter) ∨ (i = 3 ∧ s = contentsPage) ∨ (i = 5 ∧ s = opfStep) ∨ (i = 6 ∧ s = lastCopy) := by
  match i, h with
  | 2, h => injection h with h; injection h with h; exact .inl ⟨rfl, h.symm⟩
  | 3, h => injection h with h; injection h with h; exact .inr (.inl ⟨rfl, h.symm⟩)
  | 5, h => injection h with h; injection h with h; exact .inr (.inr (.inl ⟨rfl, h.symm⟩))
  | 6, h => injection h with h; injection h with h; exact .inr (.inr (.inr ⟨rfl, h.symm⟩))

/-- What the steps make has low bytes. -/
theorem ebook_tools {i : Nat} {s : Step} (h : ebook.node i = some (.step s)) : (∃ p a, s.parameters = [.path p] ∧ s.action = [a] ∧
    ¬ a < 200 ∧ (i ≠ 5 → a ≠ 203)) ∧ ∀ c : Bytes, (∀ y ∈ c, y < 200) → ∀ y ∈ s.tool [c], y < 200 := by
  have hl : ∀ c : Bytes, (∀ y ∈ c, y < 200) → ∀ y ∈ lighter [c], y < 200 := by
    intro c _ y hy
    simp only [lighter, List.flatten_cons, List.flatten_nil, List.append_nil, List.mem_map] at hy
    obtain ⟨z, _, rfl⟩ := hy
    rw [UInt8.lt_iff_toNat_lt, UInt8.toNat_div]
    have := z.toNat_lt
    have h2 : (2 : UInt8).toNat = 2 := rfl
    have h200 : (200 : UInt8).toNat = 200 := rfl
    rw [h2, h200]
    omega
  rcases ebook_step h with ⟨rfl, rfl⟩ | ⟨rfl, rfl⟩ | ⟨rfl, rfl⟩ | ⟨rfl, rfl⟩
  · exact ⟨⟨_, 201, rfl, rfl, by decide, fun _ => by decide⟩, hl⟩
  · exact ⟨⟨_, 202, rfl, rfl, by decide, fun _ => by decide⟩, hl⟩
  · exact ⟨⟨_, 203, rfl, rfl, by decide, fun h => absurd rfl h⟩, hl⟩
  · exact ⟨⟨_, 204, rfl, rfl, by decide, fun _ => by decide⟩, fun c hc => hc⟩

theorem ebook_packing : Packing ebook ebookPacks lowBytes 4 5 opfStep zipped where
  packs := rfl
  single n hn := by
    match n, hn with
    | 0, _ => rfl
    | 1, _ => rfl
    | 2, _ => rfl
    | 3, _ => rfl
    | 4, h => exact absurd rfl h
    | n + 5, _ => rfl
  group := ⟨_, rfl, rfl⟩
  render := ⟨rfl, rfl, by decide⟩
  others i s h hi := by
    rcases ebook_step h with ⟨rfl, rfl⟩ | ⟨rfl, rfl⟩ | ⟨rfl, rfl⟩ | ⟨rfl, rfl⟩
    · decide
    · decide
    · exact absurd rfl hi
    · decide
  archived i s h := by
    rcases ebook_step h with ⟨rfl, rfl⟩ | ⟨rfl, rfl⟩ | ⟨rfl, rfl⟩ | ⟨rfl, rfl⟩ <;> decide
  closed i s fs fs' h hf hf' p c hc := by
    simp only at hc
    obtain ⟨⟨q, a, h1, _, _⟩, h2⟩ := ebook_tools h
    split at hc
    · rw [h1] at hc
      injection hc with hc
      subst hc
      refine h2 _ ?_
      intro y hy
      have hy : y ∈ (fs' q).getD [] := hy
      cases hq : fs' q with
      | none => simp [hq] at hy
      | some d =>
        rw [hq] at hy
        exact hf' q d hq y hy
    · exact hf p c hc
  apart fs fs' k hf hf' hk := by
    have h203 := (tiny_mem (ps := ["opf.tpl".toList]) (a := 203) hf hk 203 (by decide)).2 rfl
    refine ⟨?_, ?_⟩
    · intro i s h hi hk'
      obtain ⟨⟨q, a, h1, h2, _, h3⟩, _⟩ := ebook_tools h
      rw [h1, h2] at hk'
      exact h3 hi ((tiny_mem (ps := [q]) hf' hk' 203 (by decide)).1 h203).symm
    · intro n g h hg hk'
      match n, h with
      | 0, h => injection h with h; injection h with h; subst h; cases hg
      | 2, h => cases h
      | 3, h => cases h
      | 5, h => cases h
      | 6, h => cases h
      | n + 7, h => cases h
      | 1, h =>
        injection h with h; injection h with h; subst h
        exact absurd ((tiny_mem (ps := ["doc.dm".toList]) (a := 206) hf' hk' 203 (by decide)).1 h203) (by decide)
      | 4, h =>
        injection h with h; injection h with h; subst h
        exact absurd ((tiny_mem (ps := ["doc.xhtml".toList, "toc.xhtml".toList]) (a := 205) hf' hk' 203 (by decide)).1 h203) (by decide)

/-- The files after the first build and the edit. -/
def shelved : FS := fun p =>
  if p = "doc.dm".toList then some [50] else if p = "toc.tpl".toList then some [8] else if p = "opf.tpl".toList then some [6]
  else if p = "doc.xhtml".toList then some [50] else if p = "toc.xhtml".toList then some [4]
  else if p = "content.opf".toList then some [3] else if p = "doc.epub".toList then some [3, 50, 4]
  else if p = "final.epub".toList then some [3, 50, 4] else none

theorem shelved_low : lowBytes shelved := by
  intro p c hc
  unfold shelved at hc
  repeat' split at hc
  all_goals first
    | (injection hc with hc; subst hc; decide)
    | cases hc

/-- The hypotheses of C82_kept are met by the second build of the epub, and those of C82_packed by its builder. -/
example : lowBytes (shelf shelved printed.2.db).fs ∧ New (shelf shelved printed.2.db) ∧ (shelf shelved printed.2.db).subs 4 = [5] ∧
    Digests ebook.cfg shelved opfStep [6, 203] [3] ∧ (shelf shelved printed.2.db).db.get? [6, 203] = some [3] ∧
    ((ebook.opsPack ebookPacks 3).build 4 (shelf shelved [])).1.toOption = some () := by
  refine ⟨shelved_low, fun _ => ⟨rfl, rfl⟩, rfl, ?_⟩
  unfold Digests
  decide +kernel

theorem contents_zipped {fs : FS} {x y z : Bytes} (hx : fs "content.opf".toList = some x) (hy : fs "doc.xhtml".toList = some y)
    (hz : fs "toc.xhtml".toList = some z) : Current fs zipped ↔ fs "doc.epub".toList = some (x ++ (y ++ z)) := by
  have hc : ∀ bs, Contents fs zipped.parameters bs ↔ bs = [x, y, z] := by
    intro bs
    unfold Contents zipped
    simp only [List.map_cons, List.map_nil, hx, hy, hz]
    constructor
    · intro h
      have : [x, y, z].map some = bs.map some := h
      exact (List.map_injective_iff.2 (fun _ _ h => Option.some.inj h) this).symm
    · rintro rfl; rfl
  unfold Current
  simp only [hc, exists_eq_left]
  simp [zipped]

/-- Epubs get old: after an epub was built, the document was edited and the next build reports 'done', the archive has the old page. -/
theorem C82_current_refuted : ∃ (P : Project) (b : Packs) (archive : Step) (w w' : World), b 4 = some ⟨5, archive⟩ ∧
    New w ∧ w.db = [] ∧ (P.buildPack b 5 0 20 w).1 = some (.ok .done) ∧ Current (P.buildPack b 5 0 20 w).2.fs archive ∧
    New w' ∧ w'.subs = w.subs ∧ w'.db = (P.buildPack b 5 0 20 w).2.db ∧
    (∀ p, p ≠ "doc.dm".toList → w'.fs p = (P.buildPack b 5 0 20 w).2.fs p) ∧
    (P.buildPack b 5 0 20 w').1 = some (.ok .done) ∧ ¬ Current (P.buildPack b 5 0 20 w').2.fs archive := by
  refine ⟨ebook, ebookPacks, zipped, shelf (manuscript 100 fun _ => none) [], shelf (manuscript 50 printed.2.fs) printed.2.db, rfl,
    shelf_new _ _, rfl, ?_⟩
  have e1 : ebook.buildPack ebookPacks 5 0 20 (shelf (manuscript 100 fun _ => none) []) = printed := by unfold printed; rfl
  have e2 : ebook.buildPack ebookPacks 5 0 20 (shelf (manuscript 50 printed.2.fs) printed.2.db) = reprinted := by unfold reprinted; rfl
  rw [e1, e2]
  have h1 : printed.2.fs "content.opf".toList = some [3] ∧ printed.2.fs "toc.xhtml".toList = some [4] ∧
      printed.2.fs "doc.epub".toList = some [3, 50, 4] ∧ printed.2.fs "toc.tpl".toList = some [8] ∧
      printed.2.fs "opf.tpl".toList = some [6] := by decide +kernel
  refine ⟨printed_eq.1, (contents_zipped h1.1 printed_eq.2.1 h1.2.1).2 h1.2.2.1, shelf_new _ _, (shelf_eq _ _).2.2.trans (shelf_eq _ _).2.2.symm,
    (shelf_eq _ _).2.1, ?_, reprinted_eq.1, ?_⟩
  · intro p hp
    rw [(shelf_eq _ _).1]
    unfold manuscript
    rw [if_neg hp]
    split
    · rename_i h; subst h; exact h1.2.2.2.1.symm
    · split
      · rename_i h; subst h; exact h1.2.2.2.2.symm
      · rfl
  · rw [contents_zipped reprinted_eq.2.2.2.1 reprinted_eq.2.1 reprinted_eq.2.2.1, reprinted_eq.2.2.2.2.1]
    decide

end Verif.Build
