import Verif.Lemmas.BuildAddsRun
import Verif.Props.Build

/-!
# C79: builds in which builders are added (images)

The theorems are about `Project.buildAdds`, for any builders, any pages that add builders, any times at which commands end, any exit
codes, and any number of rounds.
-/

namespace Verif.Build

open Verif Verif.Decider Verif.Builder

/-- What is known after any number of rounds of a build. -/
theorem BeginsAdds.out {P : Project} {U : Scope} {a : Adds} {root : Nat} {w : World} {S : Nat → Prop} (hb : BeginsAdds P U a root w S)
    (ht : Truthful P.cfg U w.db) (depth rounds : Nat) :
    ∃ S', Out P U w.subs a ⟨fun i => ∀ s, P.node i = some (.step s) → w.fs s.out = none ∨ S i, w.db⟩ root w S
        (P.buildAdds a depth root rounds w).2 S' ∧
      ((P.buildAdds a depth root rounds w).1 = some (.ok .done) →
        ∀ i, Part P (grown w.subs a (P.buildAdds a depth root rounds w).2.runs) root i → S' i) := by
  have hg : grown w.subs a w.runs = w.subs := grown_new (w := w) (fun i => (hb.2 w.runs).new i) a
  have h0 := (hb.2 w.runs).inv ht
  simp only [hg] at h0
  refine buildAdds_out (hb.2 w.runs).sound hb.1 ?_ depth root rounds w S ⟨by rw [hg]; exact h0, fun k _ => by rw [hg]⟩ ?_
  · exact fun r n g hn hc hp b m c hl hne i hi s hs => (hb.2 r).clears n g hn hc hp b m c hl hne i s hi hs
  · exact (hb.2 w.runs).guarded.mono (fun _ h => absurd h id)

/-- **C79.** The database never lies, also if builders are added during builds. -/
theorem C79_truthful {c : Cfg} {U : Scope} {fs : FS} {db : Dict Bytes Bytes} (h : PastAdds c U fs db) : Truthful c U db := by
  induction h with
  | new => intro s fs k o _ _ _ hg; cases hg
  | edit fs fs' db _ _ ih => exact ih
  | forget fs db db' _ hd ih => exact fun s fs k o hs hf h hg => ih s fs k o hs hf h (hd k o hg)
  | build P a depth root rounds w S hc hb _ ih =>
    subst hc
    obtain ⟨S', h1, _⟩ := hb.out ih depth rounds
    exact h1.held.inv.truth
  | stopped P a stop depth root rounds w S hc hb _ ih =>
    subst hc
    exact (hb.stopped ih stop depth rounds).1

theorem PastAdds.files {c : Cfg} {U : Scope} {fs : FS} {db : Dict Bytes Bytes} (h : PastAdds c U fs db) : U.files fs := by
  induction h with
  | new _ h => exact h
  | edit _ _ _ _ h => exact h
  | forget _ _ _ _ _ ih => exact ih
  | build P a depth root rounds w S hc hb hp _ =>
    subst hc
    obtain ⟨S', h1, _⟩ := hb.out (C79_truthful hp) depth rounds
    exact h1.held.inv.files
  | stopped P a stop depth root rounds w S hc hb hp _ =>
    subst hc
    exact (hb.stopped (C79_truthful hp) stop depth rounds).2

/-- **C79.** If a build reports 'done', then the file of each step, of the builders that there were and of those that were added, is what
the tool of that step makes from the files there are, and its digests are recorded. -/
theorem C79_current {P : Project} {U : Scope} {a : Adds} {root : Nat} {w : World} {S : Nat → Prop} (hp : PastAdds P.cfg U w.fs w.db)
    (hb : BeginsAdds P U a root w S) (depth rounds : Nat) (hd : (P.buildAdds a depth root rounds w).1 = some (.ok .done)) (i : Nat)
    (s : Step) (hi : Part P (grown w.subs a (P.buildAdds a depth root rounds w).2.runs) root i) (hn : P.node i = some (.step s)) :
    Current (P.buildAdds a depth root rounds w).2.fs s ∧
      ∃ k o, Digests P.cfg (P.buildAdds a depth root rounds w).2.fs s k o ∧ (P.buildAdds a depth root rounds w).2.db.get? k = some o := by
  obtain ⟨S', h1, h2⟩ := hb.out (C79_truthful hp) depth rounds
  obtain ⟨t, h3, h4, _⟩ := h1.held.inv.settled i (h2 hd i hi)
  rw [hn] at h3
  injection h3 with h3; injection h3 with h3; subst h3
  exact ⟨h1.held.inv.done_current ((hb.2 w.runs).sound.known _ _ hn) h4, h4⟩

theorem part_under {P : Project} {A B : Nat → List Nat} (hAB : ∀ n m, m ∈ A n → m ∈ B n) {m n i : Nat} (h : Under P A m n)
    (hi : Part P B n i) : Part P B m i := by
  induction h with
  | child m n g hm hn => exact .group m n i g hm (hAB m n hn) hi
  | deeper m x n g hm hx _ ih => exact .group m x i g hm (hAB m x hx) (ih hi)

/-- **C79.** If a build reports 'done' and a page was rendered in it, then the files of its images are what the tools make from the files
there are. -/
theorem C79_images {P : Project} {U : Scope} {a : Adds} {root : Nat} {w : World} {S : Nat → Prop} (hp : PastAdds P.cfg U w.fs w.db)
    (hb : BeginsAdds P U a root w S) (depth rounds : Nat) (hd : (P.buildAdds a depth root rounds w).1 = some (.ok .done))
    (n p : Nat) (l : List Nat) (ha : a n = some (p, l)) (hu : Under P w.subs root n)
    (hr : (P.buildAdds a depth root rounds w).2.runs p ≠ 0) (m : Nat) (hm : m ∈ l) (s : Step) (hs : P.node m = some (.step s)) :
    Current (P.buildAdds a depth root rounds w).2.fs s := by
  refine (C79_current hp hb depth rounds hd m s ?_ hs).1
  obtain ⟨g, hg⟩ := hb.1.groups n p l ha
  refine part_under (fun _ _ h => grown_sub _ _ _ h) hu (.group n m m g hg ?_ (.step m s hs))
  unfold grown
  rw [ha]
  simp only
  rw [if_neg hr]
  exact List.mem_append.2 (.inr hm)

/-- **C79.** No step is run twice in a build. -/
theorem C79_once {P : Project} {U : Scope} {a : Adds} {root : Nat} {w : World} {S : Nat → Prop} (hp : PastAdds P.cfg U w.fs w.db)
    (hb : BeginsAdds P U a root w S) (depth rounds : Nat) (i : Nat) (s : Step) (hn : P.node i = some (.step s)) :
    (P.buildAdds a depth root rounds w).2.runs i ≤ 1 := by
  obtain ⟨S', h1, _⟩ := hb.out (C79_truthful hp) depth rounds
  rcases h1.held.inv.once i s hn with h | ⟨h, _⟩ <;> omega

/-- **C79.** A step is not run if its digests are recorded and those of all steps that it depends on are. -/
theorem C79_not_needed {P : Project} {U : Scope} {a : Adds} {root : Nat} {w : World} {S : Nat → Prop} (hp : PastAdds P.cfg U w.fs w.db)
    (hb : BeginsAdds P U a root w S) (depth rounds : Nat) (i : Nat) (hi : S i) : (P.buildAdds a depth root rounds w).2.runs i = 0 := by
  obtain ⟨S', h1, _⟩ := hb.out (C79_truthful hp) depth rounds
  rw [h1.kept i hi]
  exact ((hb.2 w.runs).new i).2

/-- **C79.** A build changes no file that no step makes. -/
theorem C79_sources (P : Project) (a : Adds) (depth root rounds : Nat) (w : World) (p : Str) (hp : ¬ Made P (fun _ => True) p) :
    (P.buildAdds a depth root rounds w).2.fs p = w.fs p := buildAdds_keeps sources_rel a depth root rounds w p hp

/-! ### An example: a page with an image -/

def page : Step := ⟨[.path "doc.dm".toList], [201], "doc.html".toList, halve 1, true⟩
def converting : Step := ⟨[.path "fig.pdf".toList], [202], "fig.svg".toList, halve 2, false⟩

/-- The root builder, the target builder, its parallel builder, the page and the image. -/
def album (ends : Nat → List (Nat × Future)) : Project where
  cfg := tiny
  node
    | 0 => some (.group ⟨true, true, [], .other []⟩)
    | 1 => some (.group ⟨false, false, [.path "doc.dm".toList, .other [203]], .path "doc.html".toList⟩)
    | 2 => some (.group ⟨true, true, [], .other []⟩)
    | 3 => some (.step page)
    | 4 => some (.step converting)
    | _ => none
  ends := ends

def gallery : Scope := ⟨fun s => s = page ∨ s = converting, small.files⟩

def frames : Nat → List Nat
  | 0 => [1]
  | 1 => [2, 3]
  | _ => []

/-- The page adds the image to the parallel builder. -/
def hangs : Adds
  | 2 => some (3, [4])
  | _ => none

def opening (fs : FS) (db : Dict Bytes Bytes) : World := ⟨fs, db, fun _ => .new, fun _ => [], fun _ => 0, frames, 0⟩

theorem opening_eq (fs : FS) (db : Dict Bytes Bytes) : (opening fs db).fs = fs ∧ (opening fs db).db = db ∧ (opening fs db).subs = frames :=
  ⟨rfl, rfl, rfl⟩

theorem gallery_steps (s : Step) (h : gallery.step s) : ∃ p a out c inst, 200 < a ∧ (a = 201 ∧ c = 1 ∨ a = 202 ∧ c = 2) ∧
    s = ⟨[.path p], [a], out, halve c, inst⟩ := by
  rcases h with rfl | rfl
  · exact ⟨_, 201, _, 1, _, by decide, by decide, rfl⟩
  · exact ⟨_, 202, _, 2, _, by decide, by decide, rfl⟩

theorem album_step (ends : Nat → List (Nat × Future)) {i : Nat} {s : Step} (h : (album ends).node i = some (.step s)) :
    (i = 3 ∧ s = page) ∨ (i = 4 ∧ s = converting) := by
  match i, h with
  | 3, h => injection h with h; injection h with h; exact .inl ⟨rfl, h.symm⟩
  | 4, h => injection h with h; injection h with h; exact .inr ⟨rfl, h.symm⟩

theorem album_group (ends : Nat → List (Nat × Future)) {n : Nat} {g : Group} (h : (album ends).node n = some (.group g)) :
    ((n = 0 ∨ n = 2) ∧ g = ⟨true, true, [], .other []⟩) ∨
      (n = 1 ∧ g = ⟨false, false, [.path "doc.dm".toList, .other [203]], .path "doc.html".toList⟩) := by
  match n, h with
  | 0, h => injection h with h; injection h with h; exact .inl ⟨.inl rfl, h.symm⟩
  | 1, h => injection h with h; injection h with h; exact .inr ⟨rfl, h.symm⟩
  | 2, h => injection h with h; injection h with h; exact .inl ⟨.inr rfl, h.symm⟩
  | 3, h => cases h
  | 4, h => cases h
  | n + 5, h => cases h

theorem album_sound (ends : Nat → List (Nat × Future)) : Sound (album ends) gallery where
  known i s h := by
    rcases album_step ends h with ⟨_, rfl⟩ | ⟨_, rfl⟩
    · exact .inl rfl
    · exact .inr rfl
  closed i s fs bs hn hf hc p b hb := by
    simp only at hb
    split at hb
    · have : ∃ c, c ≤ 2 ∧ s.tool = halve c := by
        rcases album_step ends hn with ⟨_, rfl⟩ | ⟨_, rfl⟩
        · exact ⟨1, by decide, rfl⟩
        · exact ⟨2, by decide, rfl⟩
      obtain ⟨c, hc2, ht⟩ := this
      rw [ht] at hb
      refine ⟨_, (Option.some.inj hb).symm, ?_⟩
      rw [UInt8.lt_iff_toNat_lt]
      rw [UInt8.le_iff_toNat_le] at hc2
      have := (bs.flatten.headD 0).toNat_lt
      simp only [UInt8.toNat_add, UInt8.toNat_div]
      have h2 : (2 : UInt8).toNat = 2 := rfl
      rw [h2]
      have h200 : (200 : UInt8).toNat = 200 := rfl
      omega
    · exact hf p b hb
  faithful := by
    intro s t fs fs' k o o' hs ht hf hf' hd hd' hc
    obtain ⟨p, a, out, c, inst, ha, hac, rfl⟩ := gallery_steps s hs
    obtain ⟨p', a', out', c', inst', ha', hac', rfl⟩ := gallery_steps t ht
    obtain ⟨x, y, hx, hy, rfl, rfl⟩ := tiny_digests hf ha hd
    obtain ⟨x', y', hx', hy', hk, rfl⟩ := tiny_digests hf' ha' hd'
    simp only [List.cons.injEq, and_true] at hk
    obtain ⟨rfl, rfl⟩ := hk
    have : c = c' := by
      rcases hac with ⟨rfl, rfl⟩ | ⟨rfl, rfl⟩ <;> rcases hac' with ⟨h, rfl⟩ | ⟨h, rfl⟩ <;> first | rfl | (exact absurd h (by decide))
    subst this
    rw [tiny_current hx hy] at hc
    rw [tiny_current hx' hy', hc]
  groups n g hn hp s fs fs' k hs hf hf' hg hd := by
    obtain ⟨p, a, out, c, inst, ha, hac, rfl⟩ := gallery_steps s hs
    rcases album_group ends hn with ⟨_, rfl⟩ | ⟨_, rfl⟩
    · cases hp
    · obtain ⟨x, _, h1⟩ := tiny_key hf (by decide) hg
      obtain ⟨y, _, h2⟩ := tiny_key hf' ha hd
      rw [h1] at h2
      simp only [List.cons.injEq, and_true] at h2
      rcases hac with ⟨h, _⟩ | ⟨h, _⟩ <;> exact absurd (h2.2.trans h) (by decide)
  decided n g hn hp := by
    rcases album_group ends hn with ⟨_, rfl⟩ | ⟨_, rfl⟩
    · cases hp
    · simp
  other i s hn := by
    rcases album_step ends hn with ⟨_, rfl⟩ | ⟨_, rfl⟩
    · simp only [page]; decide
    · simp only [converting]; decide
  twins i j s t hi hj he := by
    rcases album_step ends hi with ⟨_, rfl⟩ | ⟨_, rfl⟩ <;> rcases album_step ends hj with ⟨_, rfl⟩ | ⟨_, rfl⟩
    · rfl
    · exact absurd he (by simp only [page, converting]; decide)
    · exact absurd he (by simp only [page, converting]; decide)
    · rfl

/-- No step of the album uses what another one makes. -/
theorem album_covered (ends : Nat → List (Nat × Future)) (Q : Nat → Prop) {i : Nat} {s : Step} (h : (album ends).node i = some (.step s)) :
    Covered (album ends) Q s := by
  rintro p hp ⟨j, t, _, hj, ho⟩
  refine absurd hp ?_
  rw [← ho]
  rcases album_step ends h with ⟨_, rfl⟩ | ⟨_, rfl⟩ <;> rcases album_step ends hj with ⟨_, rfl⟩ | ⟨_, rfl⟩ <;>
    simp only [page, converting] <;> decide

theorem hangs_eq {n p : Nat} {l : List Nat} (h : hangs n = some (p, l)) : n = 2 ∧ p = 3 ∧ l = [4] := by
  match n, h with
  | 2, h =>
    injection h with h; injection h with h1 h2
    exact ⟨rfl, h1.symm, h2.symm⟩

theorem hung (r : Nat → Nat) : grown frames hangs r 0 = [1] ∧ grown frames hangs r 1 = [2, 3] ∧
    ∀ m ∈ grown frames hangs r 2, m = 4 := by
  refine ⟨rfl, rfl, fun m hm => ?_⟩
  have hm : m ∈ (if r 3 = 0 then [] else [4]) := hm
  split at hm
  · exact absurd hm (List.not_mem_nil)
  · simpa using hm

theorem hung_two (ends : Nat → List (Nat × Future)) (r : Nat → Nat) (Q : Nat → Prop) : Guarded (album ends) (grown frames hangs r) Q 2 :=
  .parallel _ 2 _ rfl rfl (fun m hm => by
    obtain rfl := (hung r).2.2 m hm
    exact .step _ 4 converting rfl (album_covered ends _ (i := 4) rfl))

theorem hung_one (ends : Nat → List (Nat × Future)) (r : Nat → Nat) (Q : Nat → Prop) : Guarded (album ends) (grown frames hangs r) Q 1 := by
  refine .sequence _ 1 _ rfl rfl (fun a m b hl => ?_)
  rw [(hung r).2.1] at hl
  have hm : m ∈ [2, 3] := by rw [hl]; simp
  rcases (by simpa using hm : m = 2 ∨ m = 3) with rfl | rfl
  · exact hung_two ends r _
  · exact .step _ 3 page rfl (album_covered ends _ (i := 3) rfl)

theorem hung_root (ends : Nat → List (Nat × Future)) (r : Nat → Nat) (Q : Nat → Prop) : Guarded (album ends) (grown frames hangs r) Q 0 :=
  .parallel _ 0 _ rfl rfl (fun m hm => by
    rw [(hung r).1] at hm
    obtain rfl : m = 1 := by simpa using hm
    exact hung_one ends r Q)

theorem album_under (ends : Nat → List (Nat × Future)) {m n : Nat} (h : Under (album ends) frames m n) (hn : n = 2) : m = 0 ∨ m = 1 := by
  induction h with
  | child m n g hm h =>
    subst hn
    match m, h with
    | 0, h => exact .inl rfl
    | 1, h => exact .inr rfl
    | m + 2, h => cases h
  | deeper m x n g hm hx _ _ =>
    match m, hx with
    | 0, h => exact .inl rfl
    | 1, h => exact .inr rfl
    | m + 2, h => cases h

theorem album_fits (ends : Nat → List (Nat × Future)) : Fits (album ends) frames hangs where
  groups n p l h := by obtain ⟨rfl, rfl, rfl⟩ := hangs_eq h; exact ⟨_, rfl⟩
  pages n p l h := by obtain ⟨rfl, rfl, rfl⟩ := hangs_eq h; exact ⟨page, rfl, rfl⟩
  added n p l h m hm := by
    obtain ⟨rfl, rfl, rfl⟩ := hangs_eq h
    obtain rfl : m = 4 := by simpa using hm
    refine ⟨rfl, fun k hk => ?_⟩
    cases hk with
    | child _ _ g hg _ => cases hg
    | deeper _ _ _ g hg _ _ => cases hg
  kept n p l h m g hm hn := by
    obtain ⟨rfl, rfl, rfl⟩ := hangs_eq h
    rcases album_group ends hm with ⟨rfl | rfl, rfl⟩ | ⟨rfl, rfl⟩
    · exact absurd hn (by decide)
    · exact absurd hn (by decide)
    · rfl
  beside n p l h m hu := by
    obtain ⟨rfl, rfl, rfl⟩ := hangs_eq h
    have h1 : Part (album ends) frames 1 3 := .group 1 3 3 _ rfl (.tail _ (.head _)) (.step 3 _ rfl)
    rcases album_under ends hu rfl with rfl | rfl
    · exact .group 0 1 3 _ rfl (.head _) h1
    · exact h1
  apart n p l h hp := by
    obtain ⟨rfl, rfl, rfl⟩ := hangs_eq h
    obtain ⟨m, hm, hp⟩ := part_group (g := ⟨true, true, [], .other []⟩) rfl hp
    obtain rfl := (hung _).2.2 m hm
    exact absurd (part_step (s := converting) rfl hp) (by decide)
  guarded n p l m h hp r := by
    obtain ⟨rfl, rfl, rfl⟩ := hangs_eq h
    cases hp with
    | step _ s hs => exact .step _ 3 s hs (album_covered ends _ hs)
    | group _ x _ g hg hx hp =>
      rcases album_group ends hg with ⟨rfl | rfl, rfl⟩ | ⟨rfl, rfl⟩
      · exact hung_root ends r _
      · exact hung_two ends r _
      · exact hung_one ends r _

theorem album_begins (ends : Nat → List (Nat × Future)) (fs : FS) (db : Dict Bytes Bytes) (hf : small.files fs) :
    BeginsAdds (album ends) gallery hangs 0 (opening fs db) (fun _ => False) := by
  refine ⟨album_fits ends, fun r => ?_⟩
  refine ⟨album_sound ends, hf, fun i => ⟨rfl, rfl⟩, hung_root ends r _, fun i h => absurd h id, ?_⟩
  intro n g hn hg hp
  rcases album_group ends hn with ⟨_, rfl⟩ | ⟨_, rfl⟩
  · cases hp
  · cases hg

/-- Files with the document and the image. -/
def works (x y : UInt8) (fs : FS) : FS := fun p => if p = "doc.dm".toList then some [x] else if p = "fig.pdf".toList then some [y] else fs p

theorem works_small (x y : UInt8) (hx : x < 200) (hy : y < 200) (fs : FS) (hf : small.files fs) : small.files (works x y fs) := by
  intro p b hb
  unfold works at hb
  split at hb
  · exact ⟨x, (Option.some.inj hb).symm, hx⟩
  · split at hb
    · exact ⟨y, (Option.some.inj hb).symm, hy⟩
    · exact hf p b hb

def hourly : Nat → List (Nat × Future) := fun t => if t % 20 = 19 then [(4, .ended 0)] else []

/-- A page with an image is built; then both are edited; then the image only. -/
def vernissage : Option (Except Builder.Err Status) × World :=
  (album hourly).buildAdds hangs 5 0 30 (opening (works 10 20 fun _ => none) [])
def finissage : Option (Except Builder.Err Status) × World :=
  (album hourly).buildAdds hangs 5 0 30 (opening (works 12 40 vernissage.2.fs) vernissage.2.db)
def restored : Option (Except Builder.Err Status) × World :=
  (album hourly).buildAdds hangs 5 0 30 (opening (works 10 40 vernissage.2.fs) vernissage.2.db)

theorem vernissage_past : PastAdds tiny gallery vernissage.2.fs vernissage.2.db := by
  unfold vernissage
  exact @PastAdds.build tiny gallery (album hourly) hangs 5 0 30 (opening (works 10 20 fun _ => none) []) (fun _ => False) rfl
    (album_begins hourly _ [] (works_small 10 20 (by decide) (by decide) _ none_small))
    (.new _ (works_small 10 20 (by decide) (by decide) _ none_small))

/-- The hypotheses of the theorems are met by the second build, which renders the page and converts the image that it adds. -/
example : PastAdds tiny gallery (works 12 40 vernissage.2.fs) vernissage.2.db ∧
    BeginsAdds (album hourly) gallery hangs 0 (opening (works 12 40 vernissage.2.fs) vernissage.2.db) (fun _ => False) ∧
    hangs 2 = some (3, [4]) ∧ Under (album hourly) frames 0 2 ∧
    finissage.1 = some (.ok .done) ∧ finissage.2.runs 3 = 1 ∧ finissage.2.runs 4 = 1 ∧ vernissage.2.fs "fig.svg".toList = some [12] ∧
    finissage.2.fs "fig.svg".toList = some [22] := by
  have hf : small.files (works 12 40 vernissage.2.fs) := works_small 12 40 (by decide) (by decide) _ vernissage_past.files
  refine ⟨.edit _ _ _ vernissage_past hf, album_begins hourly _ _ hf, rfl, ?_, ?_⟩
  · exact .deeper 0 1 2 _ rfl (.head _) (.child 1 2 _ rfl (.head _))
  · decide +kernel

theorem vernissage_eq : vernissage.1 = some (.ok .done) ∧ vernissage.2.runs 3 = 1 ∧ vernissage.2.fs "doc.dm".toList = some [10] := by
  decide +kernel

theorem restored_eq : restored.1 = some (.ok .done) ∧ restored.2.fs "fig.pdf".toList = some [40] ∧
    restored.2.fs "fig.svg".toList = some [12] ∧ restored.2.runs 3 = 0 := by decide +kernel

theorem restored_old : ¬ Current restored.2.fs converting := by
  unfold converting
  rw [tiny_current restored_eq.2.1 restored_eq.2.2.1]
  decide

/-- That the page is rendered is needed: if an image is edited and its document is not, the page is not rendered, no builder is added for
the image, and the build reports 'done' with the old file of the image. The page was rendered in the build before. -/
theorem C79_stale_refuted : ∃ (P : Project) (U : Scope) (a : Adds) (w0 w : World) (n p i : Nat) (s : Step),
    PastAdds P.cfg U w0.fs w0.db ∧ BeginsAdds P U a 0 w0 (fun _ => False) ∧
    (P.buildAdds a 5 0 30 w0).1 = some (.ok .done) ∧ (P.buildAdds a 5 0 30 w0).2.runs p = 1 ∧
    w.db = (P.buildAdds a 5 0 30 w0).2.db ∧ (∀ q, q ≠ "fig.pdf".toList → w.fs q = (P.buildAdds a 5 0 30 w0).2.fs q) ∧
    BeginsAdds P U a 0 w (fun _ => False) ∧ (P.buildAdds a 5 0 30 w).1 = some (.ok .done) ∧
    a n = some (p, [i]) ∧ Under P w.subs 0 n ∧ P.node i = some (.step s) ∧ ¬ Current (P.buildAdds a 5 0 30 w).2.fs s := by
  have hf0 : small.files (works 10 20 fun _ => none) := works_small 10 20 (by decide) (by decide) _ none_small
  have hf : small.files (works 10 40 vernissage.2.fs) := works_small 10 40 (by decide) (by decide) _ vernissage_past.files
  obtain ⟨hv1, hv2, hdm⟩ := vernissage_eq
  have hq : ∀ q, q ≠ "fig.pdf".toList → works 10 40 vernissage.2.fs q = vernissage.2.fs q := by
    intro q hq
    unfold works
    split
    · rename_i he; rw [he, hdm]
    · rfl
  have hb := album_begins hourly (works 10 40 vernissage.2.fs) vernissage.2.db hf
  generalize hw0 : opening (works 10 20 fun _ => none) [] = w0
  generalize hw : opening (works 10 40 vernissage.2.fs) vernissage.2.db = w at hb
  have hdef0 : (album hourly).buildAdds hangs 5 0 30 w0 = vernissage := by subst hw0; unfold vernissage; rfl
  have hdef : (album hourly).buildAdds hangs 5 0 30 w = restored := by subst hw; unfold restored; rfl
  have hfs : w.fs = works 10 40 vernissage.2.fs := hw ▸ (opening_eq _ _).1
  have hdb : w.db = vernissage.2.db := hw ▸ (opening_eq _ _).2.1
  have hsubs : w.subs = frames := hw ▸ (opening_eq _ _).2.2
  refine ⟨album hourly, gallery, hangs, w0, w, 2, 3, 4, converting, ?_⟩
  rw [hdef, hdef0, hfs, hdb, hsubs]
  refine ⟨?_, ?_, hv1, hv2, rfl, hq, hb, restored_eq.1, rfl, ?_, rfl, restored_old⟩
  · subst hw0; exact .new _ hf0
  · subst hw0; exact album_begins hourly _ [] hf0
  · exact .deeper 0 1 2 _ rfl (.head _) (.child 1 2 _ rfl (.head _))

end Verif.Build
