import Verif.Lemmas.Carve
import Verif.Props.Area
import Verif.Props.Shoelace
import Verif.Props.Arrange
import Mathlib.Algebra.Order.Ring.Rat
import Mathlib.Algebra.Field.Rat

/-!
# C26, C27: carving the exterior and the holes out of a closed mesh

`m` is any mesh with a right adjacency map in which each directed edge is used once, and nothing is assumed about the
geometry. `Spec.Reach m.tris S` are the triangles reached from the left of the wall `S` without crossing the wall.
-/

set_option linter.unusedSectionVars false

namespace Verif.Props

open Spec

variable {V : Type*} [DecidableEq V]

/-- The triangle `t` lies on the inner side of the boundary edge `e` and is not a ghost triangle. -/
def InnerAt (g : V) (e : Edge V) (t : Tri V) : Prop := IsSide t e ∧ ¬ IsCorner t g

/-- The walls of the carving: for each edge of the closed polygon, its reverse. -/
def outerWall (b : Polyline V) : List (Edge V) := (pairs b.vertices false).map fun s => ⟨s.2, s.1⟩

theorem mem_reversedEdges {b : Polyline V} (hb : b.opened = false) {e : Edge V} :
    e ∈ reversedEdges b ↔ e ∈ outerWall b := by
  simp only [reversedEdges, mem_toSet, Polyline.intoEdges, hb, List.map_map, outerWall]
  rfl

theorem pairs_snd (l : List V) : ((pairs l false).map Prod.snd).Perm l := by
  cases l with
  | nil => exact List.Perm.refl _
  | cons a l =>
    rw [pairs_closed_eq]
    have : ∀ (l : List V) (a b : V), (consecutivePairs (a :: (l ++ [b]))).map Prod.snd = l ++ [b] := by
      intro l
      induction l with
      | nil => intro a b; rfl
      | cons c l ih => intro a b; simp only [List.cons_append, consecutivePairs, List.map_cons, ih]
    rw [this]
    exact List.perm_append_singleton a l

theorem outerWall_v2 (b : Polyline V) : (outerWall b).map Edge.v2 = b.vertices := by
  rw [outerWall, List.map_map]
  exact pairs_fst b.vertices

theorem outerWall_v1 (b : Polyline V) : ((outerWall b).map Edge.v1).Perm b.vertices := by
  rw [outerWall, List.map_map]
  exact pairs_snd b.vertices

theorem outerWall_nodup {b : Polyline V} (hn : b.vertices.Nodup) : (outerWall b).Nodup := by
  refine List.Nodup.of_map Edge.v2 ?_
  rw [outerWall_v2]; exact hn

/-- The order in which the boundary edges are visited is a permutation of the wall. -/
theorem order_perm {b : Polyline V} (hb : b.opened = false) (hn : b.vertices.Nodup) (σ : Sched) :
    (shuffle σ (reversedEdges b)).Perm (outerWall b) := by
  refine (shuffle_perm _ _).trans ?_
  unfold reversedEdges
  rw [List.perm_ext_iff_of_nodup (nodup_toSet _) (outerWall_nodup hn)]
  intro e
  exact mem_reversedEdges hb

theorem reach_congr {T : List (Tri V)} {S S' : List (Edge V)} (h : ∀ e, e ∈ S ↔ e ∈ S') {t : Tri V} :
    Reach T S t ↔ Reach T S' t := by
  have : ∀ {S S' : List (Edge V)}, (∀ e, e ∈ S ↔ e ∈ S') → Reach T S t → Reach T S' t := by
    intro S S' h hr
    induction hr with
    | start h1 h2 h3 => exact Reach.start h1 ((h _).1 h2) h3
    | step _ k2 k3 k4 k5 ih => exact Reach.step ih k2 (fun k => k3 ((h _).2 k)) k4 k5
  exact ⟨this h, this fun e => (h e).symm⟩

/-- C26: carving terminates, within a number of iterations linear in the number of triangles. -/
theorem C26_terminates (g : V) (b : Polyline V) (σ : Sched) {m : Mesh V} (hs : AdjSound m) {fuel : Nat}
    (hf : 3 * m.tris.length ≤ fuel) :
    ∃ m', carveBoundary g fuel (shuffle σ (reversedEdges b)) m = .ok m' := by
  have hpanic : ∀ S' (n : Nat) (P : List (Edge V)) (m : Mesh V), flood S' n P m ≠ .panic := by
    intro S' n
    induction n with
    | zero => intro P m; cases P <;> rw [flood] <;> simp
    | succ n ih =>
      intro P m
      cases P with
      | nil => rw [flood]; simp
      | cons e P =>
        rw [flood]
        cases m.adj e <;> exact ih _ _
  simp only [carveBoundary]
  obtain ⟨h1, h2⟩ := boundaryFirst_size (shuffle σ (reversedEdges b)) (shuffle σ (reversedEdges b)) (P := []) hs
  simp only [List.length_nil, Nat.zero_add] at h2
  cases hfl : flood (shuffle σ (reversedEdges b)) fuel
      (boundaryFirst (shuffle σ (reversedEdges b)) (shuffle σ (reversedEdges b)) m []).2
      (boundaryFirst (shuffle σ (reversedEdges b)) (shuffle σ (reversedEdges b)) m []).1 with
  | ok m1 => exact ⟨_, rfl⟩
  | panic => exact absurd hfl (hpanic _ _ _ _)
  | diverged => exact absurd hfl (flood_total _ _ h1 (h2.trans hf))

/-- C26: what is left are the triangles that cannot be reached from outside the boundary, and the ghost triangles, one
on the outer side of each boundary edge. -/
theorem C26_outside {g : V} {fuel : Nat} {b : Polyline V} {σ : Sched} {m m' : Mesh V} (hs : AdjSound m)
    (hc : AdjComplete m) (hsim : Simple m.tris) (hb : b.opened = false)
    (h : carveBoundary g fuel (shuffle σ (reversedEdges b)) m = .ok m') (t : Tri V) :
    t ∈ m'.tris ↔ (t ∈ m.tris ∧ ¬ Reach m.tris (outerWall b) t) ∨
      ∃ s ∈ pairs b.vertices false, t = ⟨s.2, s.1, g⟩ := by
  have hS : ∀ e, e ∈ shuffle σ (reversedEdges b) ↔ e ∈ outerWall b := by
    intro e; rw [mem_shuffle]; exact mem_reversedEdges hb
  rw [(carveBoundary_mem hs hc hsim.nodup h).2 t, reach_congr hS]
  simp only [hS, outerWall, List.mem_map, ghostOn]
  constructor
  · rintro (k | ⟨e, ⟨s, k1, rfl⟩, k2⟩)
    · exact Or.inl k
    · exact Or.inr ⟨s, k1, k2⟩
  · rintro (k | ⟨s, k1, k2⟩)
    · exact Or.inl k
    · exact Or.inr ⟨_, ⟨s, k1, rfl⟩, k2⟩

theorem carve_perm {g : V} {fuel : Nat} {b : Polyline V} {σ : Sched} {m m' : Mesh V} (hs : AdjSound m)
    (hc : AdjComplete m) (hsim : Simple m.tris) (hb : b.opened = false) (hn : b.vertices.Nodup)
    (h : carveBoundary g fuel (shuffle σ (reversedEdges b)) m = .ok m') :
    m'.tris.Perm (kept m.tris (outerWall b) ++ (outerWall b).map (ghostOn g)) := by
  have hS : ∀ e, e ∈ shuffle σ (reversedEdges b) ↔ e ∈ outerWall b := by
    intro e; rw [mem_shuffle]; exact mem_reversedEdges hb
  obtain ⟨k1, k2⟩ := carveBoundary_mem hs hc hsim.nodup h
  refine carved_perm hsim.nodup (outerWall_nodup hn) k1 ?_
  intro t
  rw [k2, reach_congr hS]
  simp only [hS]

theorem outerWall_closed (b : Polyline V) : ClosedWall (outerWall b) := by
  intro x
  rw [(outerWall_v1 b).count_eq, outerWall_v2]

theorem outerWall_noGhost {g : V} {b : Polyline V} (hg : g ∉ b.vertices) :
    ∀ e ∈ outerWall b, e.v1 ≠ g ∧ e.v2 ≠ g := by
  intro e he
  constructor
  · rintro rfl
    exact hg ((outerWall_v1 b).mem_iff.1 (List.mem_map_of_mem he))
  · rintro rfl
    refine hg ?_
    rw [← outerWall_v2 b]
    exact List.mem_map_of_mem he

/-- C26: the carved mesh is closed if, and unless the boundary runs back along itself only if, each boundary edge still
has its inner triangle. -/
theorem C26_closed {g : V} {fuel : Nat} {b : Polyline V} {σ : Sched} {m m' : Mesh V} (hs : AdjSound m)
    (hc : AdjComplete m) (hsim : Simple m.tris) (hw : Watertight m.tris) (hb : b.opened = false)
    (hn : b.vertices.Nodup) (hg : g ∉ b.vertices)
    (h : carveBoundary g fuel (shuffle σ (reversedEdges b)) m = .ok m')
    (hin : ∀ s ∈ pairs b.vertices false, ∃ t ∈ m'.tris, InnerAt g ⟨s.1, s.2⟩ t) : Watertight m'.tris := by
  have hp := carve_perm hs hc hsim hb hn h
  refine carved_watertight hsim hw (outerWall_nodup hn) (outerWall_closed b) (outerWall_noGhost hg) hp ?_
  intro e he
  obtain ⟨s, hs1, rfl⟩ := List.mem_map.1 he
  obtain ⟨t, ht, hte, htg⟩ := hin s hs1
  rw [hp.mem_iff, List.mem_append] at ht
  rcases ht with ht | ht
  · exact mem_sides.2 ⟨t, ht, hte⟩
  · obtain ⟨f, -, rfl⟩ := List.mem_map.1 ht
    exact absurd (Or.inr (Or.inr rfl)) htg

theorem C26_closed_only {g : V} {fuel : Nat} {b : Polyline V} {σ : Sched} {m m' : Mesh V} (hs : AdjSound m)
    (hc : AdjComplete m) (hsim : Simple m.tris) (hb : b.opened = false)
    (hg : g ∉ b.vertices) (hback : ∀ s ∈ pairs b.vertices false, (s.2, s.1) ∉ pairs b.vertices false)
    (h : carveBoundary g fuel (shuffle σ (reversedEdges b)) m = .ok m') (hw : Watertight m'.tris) :
    ∀ s ∈ pairs b.vertices false, ∃ t ∈ m'.tris, IsSide t ⟨s.1, s.2⟩ ∧
      ∀ f ∈ pairs b.vertices false, t ≠ ⟨f.2, f.1, g⟩ := by
  intro s hs1
  have hmem : (⟨s.2, s.1, g⟩ : Tri V) ∈ m'.tris :=
    (C26_outside hs hc hsim hb h _).2 (Or.inr ⟨s, hs1, rfl⟩)
  have h1 : 0 < sideCount m'.tris ⟨s.2, s.1⟩ := by
    rw [sideCount_sides, List.count_pos_iff, mem_sides]
    exact ⟨_, hmem, Or.inl ⟨rfl, rfl⟩⟩
  rw [hw, sideCount_sides, List.count_pos_iff, mem_sides] at h1
  obtain ⟨t, ht, hte⟩ := h1
  refine ⟨t, ht, hte, ?_⟩
  rintro f hf rfl
  have hv : ∀ p ∈ pairs b.vertices false, p.1 ≠ g ∧ p.2 ≠ g := by
    intro p hp
    have := outerWall_noGhost hg ⟨p.2, p.1⟩ (List.mem_map.2 ⟨p, hp, rfl⟩)
    exact ⟨this.2, this.1⟩
  rcases hte with ⟨a, c⟩ | ⟨a, c⟩ | ⟨a, c⟩
  · refine hback s hs1 ?_
    have : (s.2, s.1) = f := Prod.ext c a
    exact this ▸ hf
  · exact (hv s hs1).2 c
  · exact (hv s hs1).1 a

/-- C26: if the old ghosts were all outside, the carved mesh is again a mesh that vertices can be inserted in: its
adjacency map is right and each directed edge is used once. -/
theorem C26_good {g : V} {fuel : Nat} {b : Polyline V} {σ : Sched} {m m' : Mesh V} (hs : AdjSound m)
    (hc : AdjComplete m) (hsim : Simple m.tris) (hb : b.opened = false)
    (hn : b.vertices.Nodup) (hg : g ∉ b.vertices)
    (hout : ∀ t ∈ m.tris, IsCorner t g → Reach m.tris (outerWall b) t)
    (h : carveBoundary g fuel (shuffle σ (reversedEdges b)) m = .ok m') :
    Simple m'.tris ∧ AdjSound m' ∧ AdjComplete m' := by
  have hp := carve_perm hs hc hsim hb hn h
  have hsimple : Simple m'.tris := by
    refine carved_simple hsim (outerWall_nodup hn) ((outerWall_v1 b).nodup_iff.2 hn) ?_
      (outerWall_noGhost hg) hp ?_
    · rw [outerWall_v2]; exact hn
    · intro t ht hc
      obtain ⟨k1, k2⟩ := mem_kept.1 ht
      exact k2 (hout t k1 hc)
  refine ⟨hsimple, ?_⟩
  simp only [carveBoundary] at h
  rw [Res.bind_eq_ok] at h
  obtain ⟨m1, h1, h2⟩ := h
  injection h2 with h2
  subst h2
  obtain ⟨R, k1, -, -⟩ := boundaryFirst_inv (Q := fun _ => True) (T := m.tris)
    (S := shuffle σ (reversedEdges b))
    (fun _ _ _ _ => ⟨trivial, trivial⟩) (fun _ _ => trivial) (shuffle σ (reversedEdges b))
    (floodInv_start hs hc hsim.nodup (fun _ => True) (shuffle σ (reversedEdges b))) (fun _ h => h)
  obtain ⟨R', j1, -⟩ := flood_inv (fun _ _ _ _ => ⟨trivial, trivial⟩) (by simp) fuel k1
    (fun _ _ _ => rfl) h1
  have s1 : AdjSound m1 := fun e t he => (j1.adj e trivial t).1 he
  have c1 : AdjComplete m1 := fun t ht e he => (j1.adj e trivial t).2 ⟨ht, he⟩
  refine ⟨adjSound_addGhosts _ s1, ?_⟩
  have key : ∀ (es : List (Edge V)) (m1 : Mesh V), AdjComplete m1 →
      EdgeDisjoint (addGhosts g es m1).tris → AdjComplete (addGhosts g es m1) := by
    intro es
    induction es with
    | nil => intro m1 c1 _; exact c1
    | cons e es ih =>
      intro m1 c1 hd
      refine ih (m1.add ⟨e.v1, e.v2, g⟩) (adjComplete_add c1 ?_) hd
      refine edgeDisjoint_mono hd ?_
      intro t ht
      exact (mem_addGhosts es (m := m1.add ⟨e.v1, e.v2, g⟩)).2 (Or.inl ht)
  exact key _ m1 c1 hsimple.edgeDisjoint

section

variable {K : Type*} [Field K] [LinearOrder K] [IsStrictOrderedRing K]

/-- C26: if each boundary edge still has its inner triangle and the old ghosts were all outside, the solid triangles left
have together the area of the boundary polygon. -/
theorem C26_area {fuel : Nat} {b : Polyline (Vertex K)} {σ : Sched} {m m' : Mesh (Vertex K)}
    (hs : AdjSound m) (hc : AdjComplete m) (hsim : Simple m.tris) (hw : Watertight m.tris)
    (hb : b.opened = false) (hn : b.vertices.Nodup) (hg : ∀ v ∈ b.vertices, v.isGhost = false)
    (hout : ∀ t ∈ m.tris, t.isGhost Vertex.isGhost = true → Reach m.tris (outerWall b) t)
    (h : carveBoundary Vertex.ghost fuel (shuffle σ (reversedEdges b)) m = .ok m')
    (hin : ∀ s ∈ pairs b.vertices false, ∃ t ∈ m'.tris, InnerAt Vertex.ghost ⟨s.1, s.2⟩ t) :
    solidArea2 m'.tris = 2 * shoelace b.vertices := by
  have hgv : Vertex.ghost ∉ b.vertices := by
    intro hm
    have := hg _ hm
    simp [Vertex.ghost] at this
  have hwt := C26_closed hs hc hsim hw hb hn hgv h hin
  have hp := carve_perm hs hc hsim hb hn h
  have hend : ∀ p ∈ pairs b.vertices false, p.1.isGhost = false ∧ p.2.isGhost = false := by
    intro p hp
    constructor
    · refine hg _ ?_
      rw [← pairs_fst b.vertices]; exact List.mem_map_of_mem hp
    · exact hg _ ((pairs_snd b.vertices).mem_iff.1 (List.mem_map_of_mem hp))
  have hk : ∀ t ∈ kept m.tris (outerWall b), t.isGhost Vertex.isGhost = false := by
    intro t ht
    obtain ⟨k1, k2⟩ := mem_kept.1 ht
    by_contra hne
    exact k2 (hout t k1 (by simpa using hne))
  have hgl : GhostLast m'.tris := by
    intro t ht
    rw [hp.mem_iff, List.mem_append] at ht
    rcases ht with ht | ht
    · have := hk t ht
      simp only [Tri.isGhost, Bool.or_eq_false_iff] at this
      exact ⟨this.1.1, this.1.2⟩
    · obtain ⟨e, he, rfl⟩ := List.mem_map.1 ht
      obtain ⟨s, hs1, rfl⟩ := List.mem_map.1 he
      exact ⟨(hend s hs1).2, (hend s hs1).1⟩
  rw [C16_enclosed hwt hgl, borderArea2, ((hp.filter _).map _).sum_eq, List.filter_append]
  have e1 : (kept m.tris (outerWall b)).filter (fun t => t.isGhost Vertex.isGhost) = [] := by
    rw [List.filter_eq_nil_iff]
    intro t ht
    simp [hk t ht]
  have e2 : ((outerWall b).map (ghostOn Vertex.ghost)).filter (fun t => t.isGhost Vertex.isGhost) =
      (outerWall b).map (ghostOn Vertex.ghost) := by
    rw [List.filter_eq_self]
    intro t ht
    obtain ⟨e, -, rfl⟩ := List.mem_map.1 ht
    simp [ghostOn, Tri.isGhost, Vertex.ghost]
  rw [e1, e2, List.nil_append, shoelace_sum, outerWall, List.map_map, List.map_map]
  have e3 : ∀ l : List (Vertex K × Vertex K),
      (l.map fun s => s.1.x * s.2.y - s.2.x * s.1.y).sum =
        2 * (l.map fun s => (s.1.x * s.2.y - s.2.x * s.1.y) / 2).sum := by
    intro l
    induction l with
    | nil => simp
    | cons a l ih => simp only [List.map_cons, List.sum_cons, ih]; ring
  rw [← e3]
  rfl

end

/-- C27: carving a hole terminates, within a number of iterations linear in the number of triangles and hole edges. -/
theorem C27_terminates (g : V) (S : List (Edge V)) {m : Mesh V} (hs : AdjSound m) {fuel : Nat}
    (hf : 3 * m.tris.length + 3 * S.length ≤ fuel) : carveHole g fuel S m ≠ .diverged := by
  simp only [carveHole]
  obtain ⟨h1, h2⟩ := holeFirst_size g S S (P := []) hs
  simp only [List.length_nil, Nat.zero_add] at h2
  exact flood_total _ _ h1 (h2.trans hf)

/-- The hole is separated from the rest of the mesh: walking from the inner sides of its edges without crossing them one
meets no ghost triangle and does not come to the other side of one of them. -/
def Sealed (g : V) (T : List (Tri V)) (S : List (Edge V)) : Prop :=
  ∀ t, Reach T S t → ¬ IsCorner t g ∧ ∀ e, IsSide t e → e.opposite ∉ S

/-- C27: carving a sealed hole removes exactly the triangles reachable from the inner sides of its edges and adds a ghost
triangle on the inner side of each edge. `S` are the directed edges of the hole in any order, `g` the ghost vertex. -/
theorem C27_hole {g : V} {fuel : Nat} {S : List (Edge V)} {m m' : Mesh V} (hs : AdjSound m)
    (hc : AdjComplete m) (hsim : Simple m.tris) (hnd : S.Nodup)
    (hS : ∀ e ∈ S, e.v1 ≠ g ∧ e.v2 ≠ g) (hseal : Sealed g m.tris S)
    (h : carveHole g fuel S m = .ok m') (t : Tri V) :
    t ∈ m'.tris ↔ (t ∈ m.tris ∧ ¬ Reach m.tris S t) ∨ ∃ e ∈ S, t = ⟨e.v1, e.v2, g⟩ :=
  (carveHole_mem hs hc hsim.nodup hS hnd (fun t ht => (hseal t ht).1) (fun t ht => (hseal t ht).2) h).2 t

/-- C27: the carved mesh is closed if each hole edge has its outer triangle. -/
theorem C27_closed {g : V} {fuel : Nat} {S : List (Edge V)} {m m' : Mesh V} (hs : AdjSound m)
    (hc : AdjComplete m) (hsim : Simple m.tris) (hw : Watertight m.tris) (hnd : S.Nodup)
    (hcl : ClosedWall S) (hS : ∀ e ∈ S, e.v1 ≠ g ∧ e.v2 ≠ g) (hseal : Sealed g m.tris S)
    (hin : ∀ e ∈ S, ∃ t ∈ m.tris, IsSide t e.opposite)
    (h : carveHole g fuel S m = .ok m') : Watertight m'.tris := by
  obtain ⟨k1, k2⟩ := carveHole_mem hs hc hsim.nodup hS hnd (fun t ht => (hseal t ht).1)
    (fun t ht => (hseal t ht).2) h
  refine carved_watertight hsim hw hnd hcl hS (carved_perm hsim.nodup hnd k1 k2) ?_
  intro e he
  obtain ⟨t, ht, hte⟩ := hin e he
  refine mem_sides.2 ⟨t, mem_kept.2 ⟨ht, fun hr => ?_⟩, hte⟩
  exact (hseal t hr).2 _ hte he

/-! ## Samples

A square 0, 1, 2, 3 with a vertex 4 inside it, joined to the corners; 9 is the ghost. -/

namespace CarveSample

def meshOf (l : List (Tri Nat)) : Mesh Nat := l.foldl Mesh.add Mesh.empty

def squareTris : List (Tri Nat) :=
  [⟨0, 1, 4⟩, ⟨1, 2, 4⟩, ⟨2, 3, 4⟩, ⟨3, 0, 4⟩, ⟨1, 0, 9⟩, ⟨2, 1, 9⟩, ⟨3, 2, 9⟩, ⟨0, 3, 9⟩]

def square : Mesh Nat := meshOf squareTris

/-- The polygon 0, 1, 2, 4: half of the square. -/
def half : Polyline Nat := ⟨[0, 1, 2, 4], false, by decide⟩

theorem square_sound : AdjSound square := by
  have : ∀ (l : List (Tri Nat)) (m : Mesh Nat), AdjSound m → AdjSound (l.foldl Mesh.add m) := by
    intro l
    induction l with
    | nil => intro m h; exact h
    | cons t l ih => intro m h; exact ih _ (adjSound_add h)
  exact this _ _ adjSound_empty

theorem square_simple : Simple square.tris := by rw [simple_iff]; decide

theorem square_complete : AdjComplete square := by
  have : ∀ (l : List (Tri Nat)) (m : Mesh Nat), AdjComplete m → EdgeDisjoint (l.foldl Mesh.add m).tris →
      AdjComplete (l.foldl Mesh.add m) := by
    intro l
    induction l with
    | nil => intro m h _; exact h
    | cons t l ih =>
      intro m h hd
      refine ih _ (adjComplete_add h (edgeDisjoint_mono hd ?_)) hd
      have mono : ∀ (l : List (Tri Nat)) (m : Mesh Nat), ∀ s ∈ m.tris, s ∈ (l.foldl Mesh.add m).tris := by
        intro l
        induction l with
        | nil => intro m s h; exact h
        | cons t l ih => intro m s h; exact ih _ s (mem_add.2 (Or.inr h))
      exact mono l _
  exact this _ _ adjComplete_empty square_simple.edgeDisjoint

theorem square_watertight : Watertight square.tris := watertight_of (by decide)

/-- The half of the square after carving, when the edges come in the order of the set. -/
def carved : Mesh Nat :=
  match carveBoundary 9 50 (shuffle Sched.first (reversedEdges half)) square with
  | .ok m => m
  | _ => square

theorem carved_eq : carveBoundary 9 50 (shuffle Sched.first (reversedEdges half)) square = .ok carved := by
  obtain ⟨m', h⟩ := C26_terminates 9 half Sched.first square_sound (fuel := 50) (by decide)
  unfold carved
  rw [h]

theorem carved_tris : carved.tris = [⟨1, 0, 9⟩, ⟨2, 1, 9⟩, ⟨4, 2, 9⟩, ⟨0, 4, 9⟩, ⟨1, 2, 4⟩, ⟨0, 1, 4⟩] := by
  unfold carved
  rw [shuffle_first]
  decide

/-- C26, a sample: two triangles of the square and two of its ghosts are carved away and the hypotheses of the theorems
are met. -/
example : Watertight carved.tris ∧ Simple carved.tris ∧ AdjComplete carved ∧
    Reach square.tris (outerWall half) ⟨3, 2, 9⟩ := by
  have hout : ∀ t ∈ square.tris, t ∉ carved.tris → Reach square.tris (outerWall half) t := by
    intro t ht hn
    by_contra hr
    exact hn ((C26_outside square_sound square_complete square_simple rfl carved_eq t).2 (Or.inl ⟨ht, hr⟩))
  have hg : ∀ t ∈ square.tris, IsCorner t 9 → Reach square.tris (outerWall half) t := by
    intro t ht hc
    by_cases hm : t ∈ carved.tris
    · have hs : ∃ e ∈ outerWall half, IsSide t e := by
        rw [carved_tris] at hm
        have ht' : t ∈ squareTris.reverse := ht
        simp only [squareTris, List.reverse_cons, List.reverse_nil, List.nil_append, List.cons_append,
          List.mem_cons, List.not_mem_nil, or_false] at ht' hm
        rcases ht' with rfl | rfl | rfl | rfl | rfl | rfl | rfl | rfl <;> simp [IsCorner] at hc hm
        · exact ⟨⟨2, 1⟩, by decide, Or.inl ⟨rfl, rfl⟩⟩
        · exact ⟨⟨1, 0⟩, by decide, Or.inl ⟨rfl, rfl⟩⟩
      obtain ⟨e, he, hte⟩ := hs
      exact Reach.start ht he hte
    · exact hout t ht hm
  obtain ⟨k1, -, k3⟩ := C26_good square_sound square_complete square_simple rfl (by decide) (by decide)
    hg carved_eq
  refine ⟨?_, k1, k3, hg _ (by decide) (Or.inr (Or.inr rfl))⟩
  refine C26_closed square_sound square_complete square_simple square_watertight rfl (by decide)
    (by decide) carved_eq ?_
  intro s hs
  rw [carved_tris]
  have : s = (0, 1) ∨ s = (1, 2) ∨ s = (2, 4) ∨ s = (4, 0) := by
    simpa [half, pairs, consecutivePairs] using hs
  rcases this with rfl | rfl | rfl | rfl
  · exact ⟨⟨0, 1, 4⟩, by decide, by simp [InnerAt, IsSide, IsCorner]⟩
  · exact ⟨⟨1, 2, 4⟩, by decide, by simp [InnerAt, IsSide, IsCorner]⟩
  · exact ⟨⟨1, 2, 4⟩, by decide, by simp [InnerAt, IsSide, IsCorner]⟩
  · exact ⟨⟨0, 1, 4⟩, by decide, by simp [InnerAt, IsSide, IsCorner]⟩

/-- The edges of the triangular hole 0, 1, 4, counterclockwise. -/
def hole : List (Edge Nat) := [⟨0, 1⟩, ⟨1, 4⟩, ⟨4, 0⟩]

theorem hole_reach {t : Tri Nat} (h : Reach square.tris hole t) : t = ⟨0, 1, 4⟩ := by
  induction h with
  | @start t e h1 h2 h3 =>
    have : square.adj e = some t := square_complete t h1 e h3
    simp only [hole, List.mem_cons, List.not_mem_nil, or_false] at h2
    rcases h2 with rfl | rfl | rfl <;>
      exact (Option.some.inj (this.symm.trans (by decide : square.adj _ = some ⟨0, 1, 4⟩)))
  | @step s t e _ k2 k3 _ _ ih =>
    subst ih
    exfalso
    obtain ⟨a, b⟩ := e
    simp only [IsSide] at k2
    rcases k2 with ⟨rfl, rfl⟩ | ⟨rfl, rfl⟩ | ⟨rfl, rfl⟩ <;> exact k3 (by decide)

/-- C27, a sample: a triangle of the square is a sealed hole, and carving it leaves a closed mesh. -/
example : Sealed 9 square.tris hole ∧ ∃ m', carveHole 9 50 hole square = .ok m' ∧ Watertight m'.tris ∧
    (⟨0, 1, 4⟩ : Tri Nat) ∉ m'.tris ∧ (⟨1, 2, 4⟩ : Tri Nat) ∈ m'.tris := by
  have hseal : Sealed 9 square.tris hole := by
    intro t ht
    rw [hole_reach ht]
    refine ⟨by simp [IsCorner], ?_⟩
    rintro ⟨a, b⟩ he
    simp only [IsSide] at he
    rcases he with ⟨rfl, rfl⟩ | ⟨rfl, rfl⟩ | ⟨rfl, rfl⟩ <;> decide
  have hok : ∃ m', carveHole 9 50 hole square = .ok m' := by
    simp only [carveHole]
    exact ⟨_, rfl⟩
  obtain ⟨m', h⟩ := hok
  have hm := C27_hole square_sound square_complete square_simple (by decide)
    (by decide) hseal h
  refine ⟨hseal, m', h, ?_, ?_, ?_⟩
  · refine C27_closed square_sound square_complete square_simple square_watertight (by decide) ?_
      (by decide) hseal ?_ h
    · intro x
      exact List.Perm.count_eq (by decide) x
    · intro e he
      simp only [hole, List.mem_cons, List.not_mem_nil, or_false] at he
      rcases he with rfl | rfl | rfl
      · exact ⟨⟨1, 0, 9⟩, by decide, by simp [IsSide, Edge.opposite]⟩
      · exact ⟨⟨1, 2, 4⟩, by decide, by simp [IsSide, Edge.opposite]⟩
      · exact ⟨⟨3, 0, 4⟩, by decide, by simp [IsSide, Edge.opposite]⟩
  · rw [hm]
    rintro (⟨-, k⟩ | ⟨e, he, k⟩)
    · exact k (Reach.start (e := ⟨0, 1⟩) (by decide) (by decide) (Or.inl ⟨rfl, rfl⟩))
    · simp at k
  · rw [hm]
    refine Or.inl ⟨by decide, fun k => ?_⟩
    have := hole_reach k
    revert this
    decide

end CarveSample

/-- C27 needs the hole to be sealed, and the code does not check it: the same triangular hole given clockwise empties the
whole mesh, and no hole edge keeps its ghost triangle. -/
theorem C27_clockwise_false : ∃ (m m' : Mesh Nat) (S : List (Edge Nat)), AdjSound m ∧ AdjComplete m ∧
    Simple m.tris ∧ Watertight m.tris ∧ S.Nodup ∧ ClosedWall S ∧
    (∀ e ∈ S, ∃ t ∈ m.tris, IsSide t e) ∧ (∀ e ∈ S, ∃ t ∈ m.tris, IsSide t e.opposite) ∧
    carveHole 9 50 S m = .ok m' ∧ m'.tris = [] := by
  refine ⟨CarveSample.square, (match carveHole 9 50 [⟨1, 0⟩, ⟨4, 1⟩, ⟨0, 4⟩] CarveSample.square with
    | .ok m => m
    | _ => CarveSample.square), [⟨1, 0⟩, ⟨4, 1⟩, ⟨0, 4⟩], CarveSample.square_sound, CarveSample.square_complete,
    CarveSample.square_simple, CarveSample.square_watertight, by decide, ?_, ?_, ?_, rfl, by decide⟩
  · intro x
    exact List.Perm.count_eq (by decide) x
  · intro e he
    simp only [List.mem_cons, List.not_mem_nil, or_false] at he
    rcases he with rfl | rfl | rfl
    · exact ⟨⟨1, 0, 9⟩, by decide, by simp [IsSide]⟩
    · exact ⟨⟨1, 2, 4⟩, by decide, by simp [IsSide]⟩
    · exact ⟨⟨3, 0, 4⟩, by decide, by simp [IsSide]⟩
  · intro e he
    simp only [List.mem_cons, List.not_mem_nil, or_false] at he
    rcases he with rfl | rfl | rfl <;>
      exact ⟨⟨0, 1, 4⟩, by decide, by simp [IsSide, Edge.opposite]⟩

end Verif.Props
