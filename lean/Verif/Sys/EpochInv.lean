import Verif.Model.Epoch
import Verif.Core
import Verif.Sys.Rest
import Verif.Sys.LockInv
/-!
# The invariant of the system of `Verif/Model/Epoch.lean`
-/
set_option autoImplicit false
namespace Radix

/-! ## The pieces of `newNode` and `recycle` -/

theorem newNode_with (st : St) (a slots : Nat) : st.newNode a slots = st.newNodeWith a slots st.minReservation := rfl

theorem recycle_split (st : St) (a n slots : Nat) : st.recycle a n slots =
    if slots > recyclerLen then .ok st
    else (st.recyclePush a n slots st.epoch).bind fun r => if r.1 then .ok (r.2.recycleBump a) else .ok r.2 := by
  unfold St.recycle St.recyclePush
  split
  · rfl
  · split
    · simp only [Except.bind]
      by_cases h : (st.allocs a).counter + 1 ≥ 1000
      · rw [if_pos h, decide_eq_true h, if_pos rfl]
        unfold St.recycleBump St.flushStats
        simp [upd_upd]
      · rw [if_neg h, decide_eq_false h]
        rfl
    · rfl

/-- The reservations looked at one after the other without interruption. -/
def St.scanned (st : St) : Nat → Nat
  | 0 => maxUint64
  | i + 1 => if st.resv i < st.scanned i then st.resv i else st.scanned i

theorem scanned_min (st : St) : st.scanned st.nalloc = st.minReservation := by
  have : ∀ n, (List.range n).foldl (fun m i => if st.resv i < m then st.resv i else m) maxUint64 = st.scanned n := by
    intro n
    induction n with
    | zero => rfl
    | succ n ih => rw [List.range_succ, List.foldl_append, ih]; rfl
  exact (this _).symm

def St.withResv (st : St) (r : Nat → Nat) : St := { st with resv := r }

theorem minReservation_const {st : St} {m : Nat} (h : 0 < st.nalloc) (hm : m ≤ maxUint64) : (st.withResv fun _ => m).minReservation = m := by
  rw [← scanned_min]
  have : ∀ n, 0 < n → (st.withResv fun _ => m).scanned n = m := by
    intro n
    induction n with
    | zero => intro h; omega
    | succ n ih =>
      intro _
      show (if m < (st.withResv fun _ => m).scanned n then m else (st.withResv fun _ => m).scanned n) = m
      by_cases hn : 0 < n
      · rw [ih hn]; simp
      · obtain rfl : n = 0 := by omega
        show (if m < maxUint64 then m else maxUint64) = m
        split <;> omega
  exact this _ h

theorem allocFresh_resv (st : St) (r : Nat → Nat) (a slots : Nat) :
    (st.withResv r).allocFresh a slots = (st.allocFresh a slots).map fun q => (q.1, q.2.withResv r) := by
  unfold St.allocFresh
  have hb : (st.withResv r).blockStep = st.blockStep.map (·.withResv r) := by
    unfold St.blockStep
    show (if st.baReady then _ else if st.baNext < maxBlockCount then _ else _) = _
    split
    · rfl
    · split <;> rfl
  rw [hb]
  show (if (st.allocs a).nextFree + slots * 8 ≥ blockSize then _ else _) = _
  simp only
  split
  · cases st.blockStep <;> rfl
  · rfl

theorem newNode_resv (st : St) (m a slots : Nat) (h : 0 < st.nalloc) (hm : m ≤ maxUint64) :
    (st.withResv fun _ => m).newNode a slots = (st.newNodeWith a slots m).map fun q => (q.1, q.2.withResv fun _ => m) := by
  unfold St.newNode St.newNodeWith
  rw [minReservation_const h hm]
  simp only
  split
  · rename_i h1
    have h1' : (sizesToTry slots).findSome? (fun t => (pickItem m ((st.allocs a).recycler t)).map (Prod.mk t)) = _ := h1
    rw [h1']
    rfl
  · rename_i h1
    have h1' : (sizesToTry slots).findSome? (fun t => (pickItem m ((st.allocs a).recycler t)).map (Prod.mk t)) = _ := h1
    rw [h1']
    exact allocFresh_resv _ _ _ _

/-- What `newNodeWith` does. -/
structure DrawSpec (a slots m : Nat) (st st' : St) (n : Nat) : Prop where
  epoch : st'.epoch = st.epoch
  resv : st'.resv = st.resv
  nalloc : st'.nalloc = st.nalloc
  other : ∀ b, b ≠ a → st'.allocs b = st.allocs b
  baNext : st.baNext ≤ st'.baNext
  free : ∀ x, freeCover st' x + seg n slots x ≤ freeCover st x
  mono : ∀ (p : Nat → Bool) x, freeP p st' x ≤ freeP p st x
  local' : ∀ x, seg n slots x ≤ allocCover (fun e => decide (e < m)) (st.allocs a) x + (if st.baNext * blockSlots ≤ x then 1 else 0)
  ok : ∀ b, b < st.nalloc → AllocOK st'.baNext (st'.allocs b)
  pos : NewPos st' n slots

theorem newNodeWith_spec {st st' : St} {a slots m n : Nat} (ha : a < st.nalloc) (hm : m ≤ maxUint64) (h2 : 2 ≤ slots) (hs : slots + 1 < blockSlots)
    (hok : ∀ b, b < st.nalloc → AllocOK st.baNext (st.allocs b)) (h : st.newNodeWith a slots m = .ok (n, st')) : DrawSpec a slots m st st' n := by
  have e := newNode_resv st m a slots (by omega) hm
  rw [h] at e
  rcases newNode_spec (st := st.withResv fun _ => m) ha h2 hs hok with h0 | ⟨n', st1, h0, hsp⟩
  · rw [h0] at e; cases e
  · rw [h0] at e
    injection e with e
    injection e with e1 e2
    subst e1 e2
    have hmin := minReservation_const (st := st) (m := m) (by omega) hm
    have hresv : st'.resv = st.resv := by
      unfold St.newNodeWith at h
      simp only at h
      split at h
      · cases h; rfl
      · rcases allocFresh_spec ha (by omega) hs hok with h3 | ⟨n1, st2, h3, h4⟩
        · rw [h3] at h; cases h
        · rw [h3] at h; cases h; exact h4.frame.resv
    refine ⟨hsp.frame.epoch, hresv, hsp.frame.nalloc, hsp.frame.other, hsp.frame.baNext, fun x => hsp.free x, fun p x => hsp.mono p x, ?_, hsp.ok,
      ⟨hsp.pos, hsp.blk, hsp.fit⟩⟩
    intro x
    have c := hsp.cover (fun e => decide (e < m)) (by intro e he; rw [hmin] at he; simpa using he) x
    have c2 := allocsCover_change (fun e => decide (e < m)) (n := st.nalloc) (f := st.allocs) (g := st'.allocs) ha hsp.frame.other x
    have c3 : freeP (fun e => decide (e < m)) (st'.withResv fun _ => m) x = allocsCover (fun e => decide (e < m)) st'.nalloc st'.allocs x +
      (if st'.baNext * blockSlots ≤ x then 1 else 0) := rfl
    have c4 : freeP (fun e => decide (e < m)) (st.withResv fun _ => m) x = allocsCover (fun e => decide (e < m)) st.nalloc st.allocs x +
      (if st.baNext * blockSlots ≤ x then 1 else 0) := rfl
    have c5 : st'.nalloc = st.nalloc := hsp.frame.nalloc
    rw [c5] at c3
    simp only at c
    rw [c3, c4] at c
    omega

/-! ## The invariant -/

/-- How often `x` is in one of these nodes. -/
def pcs (l : List Piece) (x : Nat) : Nat := (l.map fun p => seg p.1 p.2 x).sum

theorem pcs_append (l l' : List Piece) (x : Nat) : pcs (l ++ l') x = pcs l x + pcs l' x := by simp [pcs]

theorem pcs_cons (p : Piece) (l : List Piece) (x : Nat) : pcs (p :: l) x = seg p.1 p.2 x + pcs l x := by simp [pcs]

@[simp] theorem pcs_nil (x : Nat) : pcs [] x = 0 := rfl

theorem pcs_perm {l l' : List Piece} (h : l.Perm l') (x : Nat) : pcs l x = pcs l' x := sum_perm (h.map _)

theorem takeOut_perm : ∀ {xs l keep : List Piece}, takeOut l xs = some keep → l.Perm (xs ++ keep)
  | [], l, keep, h => by
    injection h with h
    subst h
    exact .refl _
  | x :: xs, l, keep, h => by
    unfold takeOut at h
    split at h
    · rename_i hx
      exact (List.perm_cons_erase hx).trans (.cons x (takeOut_perm h))
    · cases h

/-- The node an allocator is about to put on a free list. -/
def EPh.item : EPh → List Piece
  | .freed n slots _ => [(n, slots)]
  | _ => []

/-- The nodes an allocator has. -/
def ESys.own (s : ESys) (a : Nat) : List Piece := s.priv a ++ s.owed a ++ (s.ph a).item

def ESys.owned (s : ESys) (x : Nat) : Nat := ((List.range s.st.nalloc).map fun a => pcs (s.own a) x).sum

theorem owned_change {s s' : ESys} {a : Nat} (ha : a < s.st.nalloc) (hn : s'.st.nalloc = s.st.nalloc) (h : ∀ b, b ≠ a → s'.own b = s.own b) (x : Nat) :
    s'.owned x + pcs (s.own a) x = s.owned x + pcs (s'.own a) x := by
  have := sum_upd (f := fun a => pcs (s.own a) x) (v := pcs (s'.own a) x) (c := a) (List.range s.st.nalloc) List.nodup_range (List.mem_range.2 ha)
  have e : (List.range s.st.nalloc).map (fun b => pcs (s'.own b) x) =
      (List.range s.st.nalloc).map (upd (fun a => pcs (s.own a) x) a (pcs (s'.own a) x)) := by
    apply List.map_congr_left
    intro b _
    by_cases hb : b = a
    · subst hb; simp
    · simp [upd_of_ne _ _ hb, h b hb]
  unfold ESys.owned
  rw [hn, e]
  exact this

theorem owned_same {s s' : ESys} (hn : s'.st.nalloc = s.st.nalloc) (h : ∀ b, s'.own b = s.own b) : s'.owned = s.owned := by
  funext x
  unfold ESys.owned
  rw [hn]
  simp [h]

theorem le_sum_of {α : Type} {f : α → Nat} {c : α} : ∀ {l : List α}, c ∈ l → f c ≤ (l.map f).sum
  | b :: l, h => by
    simp only [List.map_cons, List.sum_cons]
    rcases List.mem_cons.1 h with rfl | h
    · omega
    · have := le_sum_of (f := f) h
      omega

theorem own_le {s : ESys} {a : Nat} (ha : a < s.st.nalloc) (x : Nat) : pcs (s.own a) x ≤ s.owned x :=
  le_sum_of (f := fun a => pcs (s.own a) x) (List.mem_range.2 ha)

theorem own_two {s : ESys} {a b : Nat} (ha : a < s.st.nalloc) (hb : b < s.st.nalloc) (hab : a ≠ b) (x : Nat) :
    pcs (s.own a) x + pcs (s.own b) x ≤ s.owned x := by
  have := sum_upd (f := fun a => pcs (s.own a) x) (v := 0) (c := a) (List.range s.st.nalloc) List.nodup_range (List.mem_range.2 ha)
  have h2 := le_sum_of (f := upd (fun a => pcs (s.own a) x) a 0) (List.mem_range.2 hb)
  rw [upd_of_ne _ _ (Ne.symm hab)] at h2
  unfold ESys.owned
  omega

theorem allocCover_le {p : Nat → Bool} {st : St} {a : Nat} (ha : a < st.nalloc) (x : Nat) : allocCover p (st.allocs a) x ≤ freeP p st x := by
  have := le_sum_of (f := fun a => allocCover p (st.allocs a) x) (List.mem_range.2 ha)
  unfold freeP
  omega

/-- The memory. -/
structure EMem (s : ESys) : Prop where
  ok : ∀ b, b < s.st.nalloc → AllocOK s.st.baNext (s.st.allocs b)
  off : ∀ a, s.st.nalloc ≤ a → s.ph a = .idle ∧ s.priv a = [] ∧ s.owed a = []
  pos : ∀ p : Piece, (p ∈ s.tree ∨ ∃ a, p ∈ s.own a) → NewPos s.st p.1 p.2
  sep : ∀ x, pcs s.tree x + s.owned x + freeCover s.st x ≤ 1

/-- Slot `x`, which the operation of `b` may have come across, is not in use for anything new, and will not be before it ends. -/
structure Clean (s : ESys) (b x : Nat) : Prop where
  free : freeP (fun e => decide (e < s.st.resv b)) s.st x = 0
  item : ∀ c n slots e, s.ph c = .freed n slots e → 0 < seg n slots x → s.st.resv b ≤ e
  scan : ∀ a i m, s.ph a = .scan i m → b < i → allocCover (fun e => decide (e < m)) (s.st.allocs a) x = 0
  priv : ∀ a, pcs (s.priv a) x = 0

structure EInv (s : ESys) : Prop extends EMem s where
  resv : ∀ b, (s.ph b).active = true → s.st.resv b ≤ s.st.epoch
  start : ∀ b e, s.ph b = .start e → e ≤ s.st.epoch
  scanMax : ∀ b i m, s.ph b = .scan i m → m ≤ maxUint64
  known : ∀ b, (s.ph b).active = false → s.known b = []
  clean : ∀ b x, 0 < pcs (s.known b) x → Clean s b x

theorem EMem.in_off {s : ESys} (h : EMem s) {a : Nat} (ha : s.ph a ≠ .idle) : a < s.st.nalloc := by
  by_cases hlt : a < s.st.nalloc
  · exact hlt
  · exact absurd (h.off a (by omega)).1 ha

/-- The nodes of the tree are clean. -/
theorem EMem.tree_clean {s : ESys} (h : EMem s) {x : Nat} (hx : 0 < pcs s.tree x) (b : Nat) : Clean s b x := by
  have hs := h.sep x
  refine ⟨?_, ?_, ?_, ?_⟩
  · have := freeP_le (fun e => decide (e < s.st.resv b)) s.st x
    omega
  · intro c n slots e hc hx
    have h1 := own_le (h.in_off (a := c) (by rw [hc]; simp)) x
    unfold ESys.own at h1
    rw [pcs_append, hc] at h1
    have : pcs (EPh.freed n slots e).item x = seg n slots x := by simp [EPh.item, pcs]
    omega
  · intro a i m ha _
    have h1 := allocCover_le (p := fun e => decide (e < m)) (h.in_off (a := a) (by rw [ha]; simp)) x
    have := freeP_le (fun e => decide (e < m)) s.st x
    omega
  · intro a
    by_cases ha : a < s.st.nalloc
    · have h1 := own_le ha x
      unfold ESys.own at h1
      rw [pcs_append, pcs_append] at h1
      omega
    · rw [(h.off a (by omega)).2.1]; rfl

theorem EInv.new (n : Nat) : EInv (ESys.new n) where
  ok b _ := allocOK_new _
  off a _ := ⟨rfl, rfl, rfl⟩
  pos p h := by
    rcases h with h | ⟨a, h⟩
    · cases h
    · cases h
  sep x := by
    have : (ESys.new n).owned x = 0 := sum_zero_nat fun _ _ => rfl
    have h2 : freeCover (ESys.new n).st x = 1 := freeCover_new n x
    have h3 : pcs (ESys.new n).tree x = 0 := rfl
    omega
  resv b h := by cases h
  start b e h := by cases h
  scanMax b i m h := by cases h
  known b _ := rfl
  clean b x h := by
    have h' : 0 < pcs [] x := h
    simp at h'

/-! ## The steps -/

section
variable {s s' : ESys} {a : Nat}

/-- A step that changes the phase of `a` only. -/
theorem EInv.phase (h : EInv s) (ha : a < s.st.nalloc) {ph : EPh} (hit : ph.item = (s.ph a).item) (hact : ph.active = (s.ph a).active)
    (hst : ∀ e, ph = .start e → e ≤ s.st.epoch) (hmax : ∀ i m, ph = .scan i m → m ≤ maxUint64)
    (hfr : ∀ n slots e, ph = .freed n slots e → s.ph a = ph)
    (hscan : ∀ i m, ph = .scan i m → ∀ b x, b < i → 0 < pcs (s.known b) x → allocCover (fun e => decide (e < m)) (s.st.allocs a) x = 0) :
    EInv { s with ph := upd s.ph a ph } := by
  have hown : ∀ b, ({ s with ph := upd s.ph a ph } : ESys).own b = s.own b := by
    intro b
    unfold ESys.own
    simp only
    by_cases hb : b = a
    · subst hb; rw [upd_same, hit]
    · rw [upd_of_ne _ _ hb]
  refine ⟨⟨h.ok, ?_, ?_, ?_⟩, ?_, ?_, ?_, ?_, ?_⟩
  · intro b hb
    have hba : b ≠ a := by rintro rfl; have : s.st.nalloc ≤ b := hb; omega
    simp only [upd_of_ne _ _ hba]
    exact h.off b hb
  · intro p hp
    refine h.pos p ?_
    rcases hp with hp | ⟨b, hp⟩
    · exact .inl hp
    · rw [hown] at hp; exact .inr ⟨b, hp⟩
  · intro x
    rw [owned_same (s := s) (s' := { s with ph := upd s.ph a ph }) rfl hown]
    exact h.sep x
  · intro b hb
    by_cases hba : b = a
    · subst hba
      simp only [upd_same] at hb
      exact h.resv b (by rw [← hact]; exact hb)
    · simp only [upd_of_ne _ _ hba] at hb
      exact h.resv b hb
  · intro b e hb
    by_cases hba : b = a
    · subst hba; simp only [upd_same] at hb; exact hst e hb
    · simp only [upd_of_ne _ _ hba] at hb; exact h.start b e hb
  · intro b i m hb
    by_cases hba : b = a
    · subst hba; simp only [upd_same] at hb; exact hmax i m hb
    · simp only [upd_of_ne _ _ hba] at hb; exact h.scanMax b i m hb
  · intro b hb
    by_cases hba : b = a
    · subst hba
      simp only [upd_same] at hb
      exact h.known b (by rw [← hact]; exact hb)
    · simp only [upd_of_ne _ _ hba] at hb
      exact h.known b hb
  · intro b x hx
    have hc := h.clean b x hx
    refine ⟨hc.free, ?_, ?_, hc.priv⟩
    · intro c n slots e hce
      by_cases hca : c = a
      · subst hca
        simp only [upd_same] at hce
        exact hc.item c n slots e (by rw [hfr _ _ _ hce, hce])
      · simp only [upd_of_ne _ _ hca] at hce
        exact hc.item c n slots e hce
    · intro c i m hce hbi
      by_cases hca : c = a
      · subst hca
        simp only [upd_same] at hce
        exact hscan i m hce b x hbi hx
      · simp only [upd_of_ne _ _ hca] at hce
        exact hc.scan c i m hce hbi

theorem allocCover_mono {p q : Nat → Bool} (hpq : ∀ e, p e = true → q e = true) (al : Alloc) (x : Nat) : allocCover p al x ≤ allocCover q al x := by
  unfold allocCover
  apply Nat.add_le_add_left
  unfold recCover
  apply sum_map_mono
  intro t _
  unfold listCover
  apply sum_map_mono
  intro it _
  unfold segE
  cases hp : p it.e
  · simp
  · rw [hpq _ hp]; simp

/-- A step that changes neither phases nor nodes. -/
theorem EInv.mem (h : EInv s) {st : St} (hn : st.nalloc = s.st.nalloc) (hr : st.resv = s.st.resv) (he : s.st.epoch ≤ st.epoch)
    (hb : s.st.baNext ≤ st.baNext) (hok : ∀ b, b < st.nalloc → AllocOK st.baNext (st.allocs b)) (hfree : ∀ p x, freeP p st x ≤ freeP p s.st x)
    (hal : ∀ p b x, allocCover p (st.allocs b) x ≤ allocCover p (s.st.allocs b) x) : EInv { s with st := st } := by
  refine ⟨⟨hok, ?_, ?_, ?_⟩, ?_, ?_, h.scanMax, h.known, ?_⟩
  · intro a ha
    exact h.off a (by simp only at ha; omega)
  · intro p hp
    exact (h.pos p hp).mono hb
  · intro x
    rw [owned_same (s := s) (s' := { s with st := st }) hn fun _ => rfl]
    have h1 := h.sep x
    have h2 := hfree (fun _ => true) x
    have h3 : freeCover st x = freeP (fun _ => true) st x := rfl
    have h4 : freeCover s.st x = freeP (fun _ => true) s.st x := rfl
    simp only
    omega
  · intro b hb
    have := h.resv b hb
    simp only [hr]
    omega
  · intro b e hb
    have := h.start b e hb
    simp only
    omega
  · intro b x hx
    have hc := h.clean b x hx
    refine ⟨?_, ?_, ?_, hc.priv⟩
    · have h1 := hc.free
      have h2 := hfree (fun e => decide (e < s.st.resv b)) x
      simp only [hr]
      omega
    · intro c n slots e hce hx
      simp only [hr]
      exact hc.item c n slots e hce hx
    · intro a i m ha hbi
      have h1 := hc.scan a i m ha hbi
      have h2 := hal (fun e => decide (e < m)) a x
      simp only
      omega

theorem flushStats_cover (p : Nat → Bool) (st : St) (a b x : Nat) : allocCover p ((st.flushStats a).allocs b) x = allocCover p (st.allocs b) x := by
  unfold St.flushStats
  simp only
  by_cases hb : b = a
  · subst hb; rw [upd_same]; rfl
  · rw [upd_of_ne _ _ hb]

theorem bump_cover (p : Nat → Bool) (st : St) (a b x : Nat) : allocCover p ((st.recycleBump a).allocs b) x = allocCover p (st.allocs b) x := by
  unfold St.recycleBump
  rw [flushStats_cover]
  simp only
  by_cases hb : b = a
  · subst hb; rw [upd_same]; rfl
  · rw [upd_of_ne _ _ hb]

theorem allocOK_same {n : Nat} {al al' : Alloc} (h : AllocOK n al) (h1 : al'.nextFree = al.nextFree) (h2 : al'.offset = al.offset)
    (h3 : al'.block = al.block) (h4 : al'.recycler = al.recycler) : AllocOK n al' :=
  ⟨by rw [h1]; exact h.mod8, by rw [h1, h2, h3]; exact h.bump, fun t it ht hit => h.items t it ht (by rw [← h4]; exact hit)⟩

theorem EInv.flush (h : EInv s) : EInv { s with st := s.st.flushStats a } := by
  refine h.mem rfl rfl (Nat.le_refl _) (Nat.le_refl _) ?_ ?_ fun p b x => Nat.le_of_eq (flushStats_cover p s.st a b x)
  · intro b hb
    have := h.ok b hb
    show AllocOK s.st.baNext (upd s.st.allocs a _ b)
    by_cases hba : b = a
    · subst hba; rw [upd_same]; exact allocOK_same this rfl rfl rfl rfl
    · rw [upd_of_ne _ _ hba]; exact this
  · intro p x
    exact Nat.le_of_eq (freeP_congr p (st := s.st) (st' := s.st.flushStats a) rfl rfl (fun b _ x => flushStats_cover p s.st a b x) x)

theorem EInv.bump (h : EInv s) : EInv { s with st := s.st.recycleBump a } := by
  refine h.mem rfl rfl (Nat.le_succ _) (Nat.le_refl _) ?_ ?_ fun p b x => Nat.le_of_eq (bump_cover p s.st a b x)
  · intro b hb
    have := h.ok b hb
    have hal : ∀ b, ((s.st.recycleBump a).allocs b).nextFree = (s.st.allocs b).nextFree ∧ ((s.st.recycleBump a).allocs b).offset = (s.st.allocs b).offset ∧
        ((s.st.recycleBump a).allocs b).block = (s.st.allocs b).block ∧ ((s.st.recycleBump a).allocs b).recycler = (s.st.allocs b).recycler := by
      intro b
      unfold St.recycleBump St.flushStats
      by_cases hba : b = a
      · subst hba; simp
      · simp [upd_of_ne _ _ hba]
    exact allocOK_same this (hal b).1 (hal b).2.1 (hal b).2.2.1 (hal b).2.2.2
  · intro p x
    exact Nat.le_of_eq (freeP_congr p (st := s.st) (st' := s.st.recycleBump a) rfl rfl (fun b _ x => bump_cover p s.st a b x) x)

theorem EInv.block (h : EInv s) {st : St} (hb : s.st.blockStep = .ok st) : EInv { s with st := st } := by
  unfold St.blockStep at hb
  split at hb
  · cases hb; exact h
  · split at hb
    · cases hb
      exact h.mem rfl rfl (Nat.le_refl _) (Nat.le_refl _) h.ok (fun _ _ => Nat.le_refl _) fun _ _ _ => Nat.le_refl _
    · cases hb

theorem EInv.store (h : EInv s) (ha : a < s.st.nalloc) {e : Nat} (hp : s.ph a = .start e) :
    EInv { s with st := { s.st with resv := upd s.st.resv a e }, ph := upd s.ph a .op, known := upd s.known a s.tree } := by
  generalize hs' : ({ s with st := { s.st with resv := upd s.st.resv a e }, ph := upd s.ph a .op, known := upd s.known a s.tree } : ESys) = s'
  have hown : ∀ b, s'.own b = s.own b := by
    subst hs'
    intro b
    unfold ESys.own
    simp only
    by_cases hb : b = a
    · subst hb; rw [upd_same, hp]; rfl
    · rw [upd_of_ne _ _ hb]
  have hmem : EMem s' := by
    have hos := owned_same (s := s) (s' := s') (by subst hs'; rfl) hown
    refine ⟨by subst hs'; exact h.ok, ?_, ?_, ?_⟩
    · subst hs'
      intro b hb
      simp only at hb
      simp only [upd_of_ne s.ph _ (by omega : b ≠ a)]
      exact h.off b hb
    · intro p hp
      simp only [hown] at hp
      subst hs'
      exact (h.pos p hp).mono (Nat.le_refl _)
    · intro x
      rw [hos]
      subst hs'
      exact h.sep x
  refine ⟨hmem, ?_, ?_, ?_, ?_, ?_⟩
  · subst hs'
    intro b hb
    by_cases hba : b = a
    · subst hba; simp only [upd_same]; exact h.start _ _ hp
    · simp only [upd_of_ne _ _ hba] at hb ⊢; exact h.resv b hb
  · subst hs'
    intro b e' hb
    by_cases hba : b = a
    · subst hba; simp only [upd_same] at hb; cases hb
    · simp only [upd_of_ne _ _ hba] at hb; exact h.start b e' hb
  · subst hs'
    intro b i m hb
    by_cases hba : b = a
    · subst hba; simp only [upd_same] at hb; cases hb
    · simp only [upd_of_ne _ _ hba] at hb; exact h.scanMax b i m hb
  · subst hs'
    intro b hb
    by_cases hba : b = a
    · subst hba; simp only [upd_same] at hb; cases hb
    · simp only [upd_of_ne _ _ hba] at hb ⊢; exact h.known b hb
  · intro b x hx
    by_cases hba : b = a
    · refine hmem.tree_clean ?_ b
      subst hs' hba
      simpa using hx
    · subst hs'
      simp only [upd_of_ne _ _ hba] at hx
      have hc := h.clean b x hx
      refine ⟨?_, ?_, ?_, hc.priv⟩
      · simp only [upd_of_ne _ _ hba]; exact hc.free
      · intro c n slots e' hce
        simp only [upd_of_ne _ _ hba]
        by_cases hca : c = a
        · subst hca; simp only [upd_same] at hce; cases hce
        · simp only [upd_of_ne _ _ hca] at hce; exact hc.item c n slots e' hce
      · intro c i m hce
        by_cases hca : c = a
        · subst hca; simp only [upd_same] at hce; cases hce
        · simp only [upd_of_ne _ _ hca] at hce; exact hc.scan c i m hce

theorem EInv.done (h : EInv s) (ha : a < s.st.nalloc) (hp : s.ph a = .op) :
    EInv { s with st := s.st.endOp a, ph := upd s.ph a .idle, known := upd s.known a [] } := by
  generalize hs' : ({ s with st := s.st.endOp a, ph := upd s.ph a .idle, known := upd s.known a [] } : ESys) = s'
  have hown : ∀ b, s'.own b = s.own b := by
    subst hs'
    intro b
    unfold ESys.own
    simp only
    by_cases hb : b = a
    · subst hb; rw [upd_same, hp]; rfl
    · rw [upd_of_ne _ _ hb]
  have hos := owned_same (s := s) (s' := s') (by subst hs'; rfl) hown
  refine ⟨⟨by subst hs'; exact h.ok, ?_, ?_, ?_⟩, ?_, ?_, ?_, ?_, ?_⟩
  · subst hs'
    intro b hb
    have hb : s.st.nalloc ≤ b := hb
    simp only [upd_of_ne s.ph _ (by omega : b ≠ a)]
    exact h.off b hb
  · intro p hp
    simp only [hown] at hp
    subst hs'
    exact (h.pos p hp).mono (Nat.le_refl _)
  · intro x
    rw [hos]
    subst hs'
    exact h.sep x
  · subst hs'
    intro b hb
    by_cases hba : b = a
    · subst hba; simp only [upd_same] at hb; cases hb
    · simp only [upd_of_ne _ _ hba] at hb
      show upd s.st.resv a _ b ≤ _
      rw [upd_of_ne _ _ hba]
      exact h.resv b hb
  · subst hs'
    intro b e' hb
    by_cases hba : b = a
    · subst hba; simp only [upd_same] at hb; cases hb
    · simp only [upd_of_ne _ _ hba] at hb; exact h.start b e' hb
  · subst hs'
    intro b i m hb
    by_cases hba : b = a
    · subst hba; simp only [upd_same] at hb; cases hb
    · simp only [upd_of_ne _ _ hba] at hb; exact h.scanMax b i m hb
  · subst hs'
    intro b hb
    by_cases hba : b = a
    · subst hba; simp only [upd_same]
    · simp only [upd_of_ne _ _ hba] at hb ⊢; exact h.known b hb
  · subst hs'
    intro b x hx
    by_cases hba : b = a
    · subst hba; simp at hx
    · simp only [upd_of_ne _ _ hba] at hx
      have hc := h.clean b x hx
      have hre : (s.st.endOp a).resv b = s.st.resv b := upd_of_ne _ _ hba
      refine ⟨?_, ?_, ?_, hc.priv⟩
      · simp only [hre]; exact hc.free
      · intro c n slots e' hce
        simp only [hre]
        by_cases hca : c = a
        · subst hca; simp only [upd_same] at hce; cases hce
        · simp only [upd_of_ne _ _ hca] at hce; exact hc.item c n slots e' hce
      · intro c i m hce
        by_cases hca : c = a
        · subst hca; simp only [upd_same] at hce; cases hce
        · simp only [upd_of_ne _ _ hca] at hce; exact hc.scan c i m hce

theorem EInv.drop (h : EInv s) (ha : a < s.st.nalloc) : EInv { s with priv := upd s.priv a [] } := by
  have hown : ∀ b, b ≠ a → ({ s with priv := upd s.priv a [] } : ESys).own b = s.own b := by
    intro b hb
    unfold ESys.own
    simp only [upd_of_ne _ _ hb]
  have hown' : ({ s with priv := upd s.priv a [] } : ESys).own a = s.owed a ++ (s.ph a).item := by
    unfold ESys.own
    simp
  have hsub : ∀ b p, p ∈ ({ s with priv := upd s.priv a [] } : ESys).own b → p ∈ s.own b := by
    intro b p hp
    by_cases hb : b = a
    · subst hb
      rw [hown'] at hp
      unfold ESys.own
      simp only [List.mem_append] at hp ⊢
      rcases hp with hp | hp
      · exact .inl (.inr hp)
      · exact .inr hp
    · rw [hown b hb] at hp; exact hp
  refine ⟨⟨h.ok, ?_, ?_, ?_⟩, h.resv, h.start, h.scanMax, h.known, ?_⟩
  · intro b hb
    have hb : s.st.nalloc ≤ b := hb
    simp only [upd_of_ne _ _ (by omega : b ≠ a)]
    exact h.off b hb
  · intro p hp
    refine h.pos p ?_
    rcases hp with hp | ⟨b, hp⟩
    · exact .inl hp
    · exact .inr ⟨b, hsub b p hp⟩
  · intro x
    have h1 := owned_change (s := s) (s' := { s with priv := upd s.priv a [] }) ha rfl hown x
    rw [hown'] at h1
    unfold ESys.own at h1
    have h2 := h.sep x
    rw [List.append_assoc, pcs_append] at h1
    simp only at h1 ⊢
    omega
  · intro b x hx
    have hc := h.clean b x hx
    refine ⟨hc.free, hc.item, hc.scan, ?_⟩
    intro c
    by_cases hca : c = a
    · subst hca; simp
    · simp only [upd_of_ne _ _ hca]; exact hc.priv c

theorem EInv.take (h : EInv s) (ha : a < s.st.nalloc) {slots m n : Nat} {st : St} (hp : s.ph a = .scan s.st.nalloc m) (h2 : 2 ≤ slots)
    (hs : slots + 1 < blockSlots) (hd : s.st.newNodeWith a slots m = .ok (n, st)) :
    EInv { s with st := st, ph := upd s.ph a .op, priv := upd s.priv a (s.priv a ++ [(n, slots)]) } := by
  have hsp := newNodeWith_spec ha (h.scanMax _ _ _ hp) h2 hs h.ok hd
  generalize hs' : ({ s with st := st, ph := upd s.ph a .op, priv := upd s.priv a (s.priv a ++ [(n, slots)]) } : ESys) = s'
  have hown : ∀ b, b ≠ a → s'.own b = s.own b := by
    subst hs'
    intro b hb
    unfold ESys.own
    simp only [upd_of_ne _ _ hb]
  have hown' : s'.own a = s.priv a ++ [(n, slots)] ++ s.owed a := by
    subst hs'
    unfold ESys.own
    simp [EPh.item]
  have howna : s.own a = s.priv a ++ s.owed a := by
    unfold ESys.own
    rw [hp]
    simp [EPh.item]
  have hos := owned_change (s := s) (s' := s') ha (by subst hs'; exact hsp.nalloc) hown
  refine ⟨⟨?_, ?_, ?_, ?_⟩, ?_, ?_, ?_, ?_, ?_⟩
  · subst hs'
    intro b hb
    exact hsp.ok b (by simp only at hb; rw [hsp.nalloc] at hb; exact hb)
  · subst hs'
    intro b hb
    simp only at hb
    rw [hsp.nalloc] at hb
    simp only [upd_of_ne _ _ (by omega : b ≠ a)]
    exact h.off b hb
  · intro p hq
    have hmono : NewPos s.st p.1 p.2 → NewPos s'.st p.1 p.2 := fun h => h.mono (by subst hs'; exact hsp.baNext)
    rcases hq with hq | ⟨b, hq⟩
    · exact hmono (h.pos p (.inl (by subst hs'; exact hq)))
    · by_cases hb : b = a
      · subst hb
        rw [hown'] at hq
        simp only [List.mem_append, List.mem_singleton] at hq
        rcases hq with (hq | hq) | hq
        · exact hmono (h.pos p (.inr ⟨b, by rw [howna]; exact List.mem_append_left _ hq⟩))
        · subst hq; subst hs'; exact hsp.pos
        · exact hmono (h.pos p (.inr ⟨b, by rw [howna]; exact List.mem_append_right _ hq⟩))
      · rw [hown b hb] at hq
        exact hmono (h.pos p (.inr ⟨b, hq⟩))
  · intro x
    have h1 := hos x
    rw [hown', howna] at h1
    simp only [pcs_append, pcs_cons, pcs_nil] at h1
    have h3 := h.sep x
    have h4 := hsp.free x
    have h5 : pcs s'.tree x = pcs s.tree x := by subst hs'; rfl
    have h6 : freeCover s'.st x = freeCover st x := by subst hs'; rfl
    omega
  · subst hs'
    intro b hb
    simp only [hsp.resv, hsp.epoch]
    by_cases hba : b = a
    · subst hba; exact h.resv b (by rw [hp]; rfl)
    · simp only [upd_of_ne _ _ hba] at hb; exact h.resv b hb
  · subst hs'
    intro b e' hb
    simp only [hsp.epoch]
    by_cases hba : b = a
    · subst hba; simp only [upd_same] at hb; cases hb
    · simp only [upd_of_ne _ _ hba] at hb; exact h.start b e' hb
  · subst hs'
    intro b i m hb
    by_cases hba : b = a
    · subst hba; simp only [upd_same] at hb; cases hb
    · simp only [upd_of_ne _ _ hba] at hb; exact h.scanMax b i m hb
  · subst hs'
    intro b hb
    by_cases hba : b = a
    · subst hba; simp only [upd_same] at hb; cases hb
    · simp only [upd_of_ne _ _ hba] at hb; exact h.known b hb
  · subst hs'
    intro b x hx
    have hx : 0 < pcs (s.known b) x := hx
    have hc := h.clean b x hx
    have hb : b < s.st.nalloc := by
      by_cases hb : b < s.st.nalloc
      · exact hb
      · have h1 := h.known b (by rw [(h.off b (by omega)).1]; rfl)
        rw [h1] at hx
        simp at hx
    refine ⟨?_, ?_, ?_, ?_⟩
    · have h1 := hc.free
      have h3 := hsp.mono (fun e => decide (e < s.st.resv b)) x
      simp only [hsp.resv]
      omega
    · intro c n slots e' hce
      simp only [hsp.resv]
      by_cases hca : c = a
      · subst hca; simp only [upd_same] at hce; cases hce
      · simp only [upd_of_ne _ _ hca] at hce; exact hc.item c n slots e' hce
    · intro c i m hce
      by_cases hca : c = a
      · subst hca; simp only [upd_same] at hce; cases hce
      · simp only [upd_of_ne _ _ hca] at hce
        simp only [hsp.other c hca]
        exact hc.scan c i m hce
    · intro c
      by_cases hca : c = a
      · subst hca
        simp only [upd_same, pcs_append, pcs_cons, pcs_nil]
        have h1 := hc.priv c
        have h3 := hsp.local' x
        have h4 := hc.scan c _ _ hp hb
        have h5 := hc.free
        rw [freeP_eq] at h5
        omega
      · simp only [upd_of_ne _ _ hca]; exact hc.priv c

theorem EInv.swap (h : EInv s) (ha : a < s.st.nalloc) {out lost keep : List Piece} (hp : s.ph a = .op) (ht : takeOut s.tree (out ++ lost) = some keep) :
    EInv { s with
      tree := keep ++ s.priv a
      priv := upd s.priv a []
      owed := upd s.owed a (s.owed a ++ out)
      known := fun b => if (s.ph b).active then s.known b ++ (keep ++ s.priv a) else s.known b } := by
  generalize hs' : ({ s with
      tree := keep ++ s.priv a
      priv := upd s.priv a []
      owed := upd s.owed a (s.owed a ++ out)
      known := fun b => if (s.ph b).active then s.known b ++ (keep ++ s.priv a) else s.known b } : ESys) = s'
  have hperm := takeOut_perm ht
  have hown : ∀ b, b ≠ a → s'.own b = s.own b := by
    subst hs'
    intro b hb
    unfold ESys.own
    simp only [upd_of_ne _ _ hb]
  have hown' : s'.own a = s.owed a ++ out := by
    subst hs'
    unfold ESys.own
    simp [hp, EPh.item]
  have howna : s.own a = s.priv a ++ s.owed a := by
    unfold ESys.own
    rw [hp]
    simp [EPh.item]
  have hos := owned_change (s := s) (s' := s') ha (by subst hs'; rfl) hown
  have hmem : EMem s' := by
    refine ⟨by subst hs'; exact h.ok, ?_, ?_, ?_⟩
    · subst hs'
      intro b hb
      have hb : s.st.nalloc ≤ b := hb
      simp only [upd_of_ne _ _ (by omega : b ≠ a)]
      exact h.off b hb
    · intro p hq
      have hst : s'.st = s.st := by subst hs'; rfl
      rw [hst]
      rcases hq with hq | ⟨b, hq⟩
      · have hq : p ∈ keep ++ s.priv a := by subst hs'; exact hq
        rcases List.mem_append.1 hq with hq | hq
        · exact h.pos p (.inl (hperm.mem_iff.2 (by simp [hq])))
        · exact h.pos p (.inr ⟨a, by rw [howna]; simp [hq]⟩)
      · by_cases hb : b = a
        · subst hb
          rw [hown'] at hq
          rcases List.mem_append.1 hq with hq | hq
          · exact h.pos p (.inr ⟨b, by rw [howna]; simp [hq]⟩)
          · exact h.pos p (.inl (hperm.mem_iff.2 (by simp [hq])))
        · rw [hown b hb] at hq
          exact h.pos p (.inr ⟨b, hq⟩)
    · intro x
      have h1 := hos x
      rw [hown', howna] at h1
      have h2 := h.sep x
      have h3 := pcs_perm hperm x
      have h4 : pcs s'.tree x = pcs keep x + pcs (s.priv a) x := by subst hs'; exact pcs_append _ _ _
      have h5 : freeCover s'.st x = freeCover s.st x := by subst hs'; rfl
      simp only [pcs_append] at h1 h3
      omega
  refine ⟨hmem, by subst hs'; exact h.resv, by subst hs'; exact h.start, by subst hs'; exact h.scanMax, ?_, ?_⟩
  · subst hs'
    intro b hb
    have hb : (s.ph b).active = false := hb
    simp only [hb]
    exact h.known b hb
  · intro b x hx
    have hx' : 0 < pcs (s.known b) x ∨ 0 < pcs s'.tree x := by
      subst hs'
      simp only at hx ⊢
      split at hx
      · rw [pcs_append] at hx; omega
      · exact .inl hx
    rcases hx' with hx' | hx'
    · have hc := h.clean b x hx'
      subst hs'
      refine ⟨hc.free, hc.item, hc.scan, ?_⟩
      intro c
      by_cases hca : c = a
      · subst hca; simp
      · simp only [upd_of_ne _ _ hca]; exact hc.priv c
    · exact hmem.tree_clean hx' b

/-- A node too large for the recycler. -/
theorem EInv.forget (h : EInv s) (ha : a < s.st.nalloc) {p : Piece} {rest : List Piece} (ho : s.owed a = p :: rest) :
    EInv { s with owed := upd s.owed a rest } := by
  have hown : ∀ b, b ≠ a → ({ s with owed := upd s.owed a rest } : ESys).own b = s.own b := by
    intro b hb
    unfold ESys.own
    simp only [upd_of_ne _ _ hb]
  have hown' : ({ s with owed := upd s.owed a rest } : ESys).own a = s.priv a ++ rest ++ (s.ph a).item := by
    unfold ESys.own
    simp
  have howna : s.own a = s.priv a ++ p :: rest ++ (s.ph a).item := by
    unfold ESys.own
    rw [ho]
  refine ⟨⟨h.ok, ?_, ?_, ?_⟩, h.resv, h.start, h.scanMax, h.known, ?_⟩
  · intro b hb
    have hb : s.st.nalloc ≤ b := hb
    simp only [upd_of_ne _ _ (by omega : b ≠ a)]
    exact h.off b hb
  · intro q hq
    refine h.pos q ?_
    rcases hq with hq | ⟨b, hq⟩
    · exact .inl hq
    · refine .inr ⟨b, ?_⟩
      by_cases hb : b = a
      · subst hb
        rw [hown'] at hq
        rw [howna]
        simp only [List.mem_append, List.mem_cons] at hq ⊢
        rcases hq with (hq | hq) | hq
        · exact .inl (.inl hq)
        · exact .inl (.inr (.inr hq))
        · exact .inr hq
      · rw [hown b hb] at hq; exact hq
  · intro x
    have h1 := owned_change (s := s) (s' := { s with owed := upd s.owed a rest }) ha rfl hown x
    rw [hown', howna] at h1
    have h2 := h.sep x
    simp only [pcs_append, pcs_cons] at h1
    simp only at h1 ⊢
    omega
  · intro b x hx
    have hc := h.clean b x hx
    exact ⟨hc.free, hc.item, hc.scan, hc.priv⟩

theorem EInv.fetch (h : EInv s) (ha : a < s.st.nalloc) (hp : s.ph a = .op) {n slots : Nat} {rest : List Piece} (ho : s.owed a = (n, slots) :: rest) :
    EInv { s with ph := upd s.ph a (.freed n slots s.st.epoch), owed := upd s.owed a rest } := by
  generalize hs' : ({ s with ph := upd s.ph a (.freed n slots s.st.epoch), owed := upd s.owed a rest } : ESys) = s'
  have hown : ∀ b, b ≠ a → s'.own b = s.own b := by
    subst hs'
    intro b hb
    unfold ESys.own
    simp only [upd_of_ne _ _ hb]
  have hown' : s'.own a = s.priv a ++ rest ++ [(n, slots)] := by
    subst hs'
    unfold ESys.own
    simp [EPh.item]
  have howna : s.own a = s.priv a ++ (n, slots) :: rest := by
    unfold ESys.own
    rw [ho, hp]
    simp [EPh.item]
  have hos := owned_change (s := s) (s' := s') ha (by subst hs'; rfl) hown
  refine ⟨⟨by subst hs'; exact h.ok, ?_, ?_, ?_⟩, ?_, ?_, ?_, ?_, ?_⟩
  · subst hs'
    intro b hb
    have hb : s.st.nalloc ≤ b := hb
    simp only [upd_of_ne _ _ (by omega : b ≠ a)]
    exact h.off b hb
  · intro q hq
    have hst : s'.st = s.st := by subst hs'; rfl
    rw [hst]
    refine h.pos q ?_
    rcases hq with hq | ⟨b, hq⟩
    · exact .inl (by subst hs'; exact hq)
    · refine .inr ⟨b, ?_⟩
      by_cases hb : b = a
      · subst hb
        rw [hown'] at hq
        rw [howna]
        simp only [List.mem_append, List.mem_cons, List.not_mem_nil, or_false] at hq ⊢
        rcases hq with (hq | hq) | hq
        · exact .inl hq
        · exact .inr (.inr hq)
        · exact .inr (.inl hq)
      · rw [hown b hb] at hq; exact hq
  · intro x
    have h1 := hos x
    rw [hown', howna] at h1
    have h2 := h.sep x
    simp only [pcs_append, pcs_cons, pcs_nil] at h1
    have h4 : pcs s'.tree x = pcs s.tree x := by subst hs'; rfl
    have h5 : freeCover s'.st x = freeCover s.st x := by subst hs'; rfl
    omega
  · subst hs'
    intro b hb
    by_cases hba : b = a
    · subst hba; exact h.resv b (by rw [hp]; rfl)
    · simp only [upd_of_ne _ _ hba] at hb; exact h.resv b hb
  · subst hs'
    intro b e' hb
    by_cases hba : b = a
    · subst hba; simp only [upd_same] at hb; cases hb
    · simp only [upd_of_ne _ _ hba] at hb; exact h.start b e' hb
  · subst hs'
    intro b i m hb
    by_cases hba : b = a
    · subst hba; simp only [upd_same] at hb; cases hb
    · simp only [upd_of_ne _ _ hba] at hb; exact h.scanMax b i m hb
  · subst hs'
    intro b hb
    by_cases hba : b = a
    · subst hba; simp only [upd_same] at hb; cases hb
    · simp only [upd_of_ne _ _ hba] at hb; exact h.known b hb
  · subst hs'
    intro b x hx
    have hx : 0 < pcs (s.known b) x := hx
    have hc := h.clean b x hx
    refine ⟨hc.free, ?_, ?_, hc.priv⟩
    · intro c n' slots' e' hce hx'
      by_cases hca : c = a
      · subst hca
        simp only [upd_same] at hce
        cases hce
        refine h.resv b ?_
        cases hb : (s.ph b).active
        · rw [h.known b hb] at hx; simp at hx
        · rfl
      · simp only [upd_of_ne _ _ hca] at hce; exact hc.item c n' slots' e' hce hx'
    · intro c i m hce
      by_cases hca : c = a
      · subst hca; simp only [upd_same] at hce; cases hce
      · simp only [upd_of_ne _ _ hca] at hce; exact hc.scan c i m hce

theorem recyclePush_eff {st st' : St} {n slots e : Nat} {bp : Bool} (ha : a < st.nalloc)
    (hok : ∀ b, b < st.nalloc → AllocOK st.baNext (st.allocs b)) (hpos : NewPos st n slots) (h : st.recyclePush a n slots e = .ok (bp, st')) :
    st'.epoch = st.epoch ∧ (∀ b, b ≠ a → st'.allocs b = st.allocs b) ∧ RecEff a n slots { st with epoch := e } { st' with epoch := e } := by
  unfold St.recyclePush at h
  split at h
  · rename_i hs
    injection h with h
    injection h with h1 h2
    subst h2
    refine ⟨rfl, fun b hb => upd_of_ne _ _ hb, ?_⟩
    refine recycle_aux (st := { st with epoch := e }) ha hs hok ⟨hpos.pos, hpos.blk, hpos.fit⟩ rfl rfl rfl rfl rfl rfl rfl rfl (Nat.le_refl _) (fun b hb => upd_of_ne _ _ hb) ?_ ?_ ?_ ?_ ?_
    all_goals simp
  · cases h

theorem EInv.push (h : EInv s) (ha : a < s.st.nalloc) {n slots e : Nat} {bp : Bool} {st : St} (hp : s.ph a = .freed n slots e)
    (hq : s.st.recyclePush a n slots e = .ok (bp, st)) : EInv { s with st := st, ph := upd s.ph a (if bp then .bump else .op) } := by
  have hpos := h.pos (n, slots) (.inr ⟨a, by unfold ESys.own; rw [hp]; simp [EPh.item]⟩)
  obtain ⟨hep, hother, heff⟩ := recyclePush_eff ha h.ok hpos hq
  have hn : st.nalloc = s.st.nalloc := heff.nalloc
  have hr : st.resv = s.st.resv := heff.resv
  have hbn : st.baNext = s.st.baNext := heff.baNext
  have hfree : ∀ (p : Nat → Bool) x, freeP p st x ≤ freeP p s.st x + (if p e then seg n slots x else 0) := heff.free
  generalize hph : (if bp then EPh.bump else EPh.op) = ph
  have hph1 : ph.item = [] ∧ ph.active = true ∧ (∀ e, ph ≠ .start e) ∧ (∀ i m, ph ≠ .scan i m) ∧ ∀ n sl e, ph ≠ .freed n sl e := by
    subst hph
    cases bp <;> simp [EPh.item, EPh.active]
  generalize hs' : ({ s with st := st, ph := upd s.ph a ph } : ESys) = s'
  have hown : ∀ b, b ≠ a → s'.own b = s.own b := by
    subst hs'
    intro b hb
    unfold ESys.own
    simp only [upd_of_ne _ _ hb]
  have hown' : s'.own a = s.priv a ++ s.owed a := by
    subst hs'
    unfold ESys.own
    simp [hph1.1]
  have howna : s.own a = s.priv a ++ s.owed a ++ [(n, slots)] := by
    unfold ESys.own
    rw [hp]
    simp [EPh.item]
  have hos := owned_change (s := s) (s' := s') ha (by subst hs'; exact hn) hown
  refine ⟨⟨?_, ?_, ?_, ?_⟩, ?_, ?_, ?_, ?_, ?_⟩
  · subst hs'
    intro b hb
    exact heff.ok b (by simp only at hb; rw [hn] at hb; exact hb)
  · subst hs'
    intro b hb
    simp only at hb
    rw [hn] at hb
    simp only [upd_of_ne _ _ (by omega : b ≠ a)]
    exact h.off b hb
  · intro q hm
    have hmono : NewPos s.st q.1 q.2 → NewPos s'.st q.1 q.2 := fun h => h.mono (by subst hs'; exact Nat.le_of_eq hbn.symm)
    refine hmono (h.pos q ?_)
    rcases hm with hm | ⟨b, hm⟩
    · exact .inl (by subst hs'; exact hm)
    · refine .inr ⟨b, ?_⟩
      by_cases hb : b = a
      · subst hb
        rw [hown'] at hm
        rw [howna]
        exact List.mem_append_left _ hm
      · rw [hown b hb] at hm; exact hm
  · intro x
    have h1 := hos x
    rw [hown', howna] at h1
    have h2 := h.sep x
    have h3 := hfree (fun _ => true) x
    simp only [pcs_append, pcs_cons, pcs_nil] at h1
    have h4 : pcs s'.tree x = pcs s.tree x := by subst hs'; rfl
    have h5 : freeCover s'.st x = freeP (fun _ => true) st x := by subst hs'; rfl
    have h6 : freeCover s.st x = freeP (fun _ => true) s.st x := rfl
    simp only [if_true] at h3
    omega
  · subst hs'
    intro b hb
    simp only [hr, hep]
    by_cases hba : b = a
    · subst hba; exact h.resv b (by rw [hp]; rfl)
    · simp only [upd_of_ne _ _ hba] at hb; exact h.resv b hb
  · subst hs'
    intro b e' hb
    simp only [hep]
    by_cases hba : b = a
    · subst hba; simp only [upd_same] at hb; exact absurd hb (hph1.2.2.1 _)
    · simp only [upd_of_ne _ _ hba] at hb; exact h.start b e' hb
  · subst hs'
    intro b i m hb
    by_cases hba : b = a
    · subst hba; simp only [upd_same] at hb; exact absurd hb (hph1.2.2.2.1 _ _)
    · simp only [upd_of_ne _ _ hba] at hb; exact h.scanMax b i m hb
  · subst hs'
    intro b hb
    by_cases hba : b = a
    · subst hba; simp only [upd_same, hph1.2.1] at hb; cases hb
    · simp only [upd_of_ne _ _ hba] at hb; exact h.known b hb
  · subst hs'
    intro b x hx
    have hx : 0 < pcs (s.known b) x := hx
    have hc := h.clean b x hx
    refine ⟨?_, ?_, ?_, hc.priv⟩
    · have h1 := hc.free
      have h3 := hfree (fun e => decide (e < s.st.resv b)) x
      simp only [hr]
      have h4 : (if decide (e < s.st.resv b) = true then seg n slots x else 0) = 0 := by
        by_cases hx' : 0 < seg n slots x
        · have := hc.item a n slots e hp hx'
          simp only [decide_eq_true_eq]
          rw [if_neg (by omega)]
        · split <;> omega
      omega
    · intro c n' slots' e' hce hx'
      simp only [hr]
      by_cases hca : c = a
      · subst hca
        simp only [upd_same] at hce
        exact absurd hce (hph1.2.2.2.2 _ _ _)
      · simp only [upd_of_ne _ _ hca] at hce; exact hc.item c n' slots' e' hce hx'
    · intro c i m hce
      by_cases hca : c = a
      · subst hca; simp only [upd_same] at hce; exact absurd hce (hph1.2.2.2.1 _ _)
      · simp only [upd_of_ne _ _ hca] at hce
        simp only [hother c hca]
        exact hc.scan c i m hce

theorem EInv.look (h : EInv s) (ha : a < s.st.nalloc) {i m : Nat} (hp : s.ph a = .scan i m) :
    EInv { s with ph := upd s.ph a (.scan (i + 1) (if s.st.resv i < m then s.st.resv i else m)) } := by
  have hm := h.scanMax _ _ _ hp
  refine h.phase ha (by rw [hp]; rfl) (by rw [hp]; rfl) (by intro e he; cases he) ?_ (by intro n slots e he; cases he) ?_
  · intro i' m' he
    cases he
    split <;> omega
  · intro i' m' he b x hb hx
    cases he
    have hc := h.clean b x hx
    by_cases hbi : b < i
    · have h1 := hc.scan a i m hp hbi
      have h2 := allocCover_mono (p := fun e => decide (e < if s.st.resv i < m then s.st.resv i else m)) (q := fun e => decide (e < m))
        (by intro e; simp only [decide_eq_true_eq]; split <;> omega) (s.st.allocs a) x
      omega
    · obtain rfl : b = i := by omega
      have h1 := hc.free
      have h2 := allocCover_mono (p := fun e => decide (e < if s.st.resv b < m then s.st.resv b else m)) (q := fun e => decide (e < s.st.resv b))
        (by intro e; simp only [decide_eq_true_eq]; split <;> omega) (s.st.allocs a) x
      have h3 := allocCover_le (p := fun e => decide (e < s.st.resv b)) ha x
      omega

theorem EInv.step {act : EAct} (h : EInv s) (hw : ∀ a, act.who = some a → a < s.st.nalloc) (he : eexec s act = some (.ok s')) : EInv s' := by
  cases act with
  | load a =>
    simp only [eexec] at he
    split at he
    · rename_i hp
      cases he
      exact h.phase (hw a rfl) (by rw [hp]; rfl) (by rw [hp]; rfl) (by intro e he; cases he; exact Nat.le_refl _) (by intro i m he; cases he)
        (by intro n sl e he; cases he) (by intro i m he; cases he)
    · cases he
  | store a =>
    simp only [eexec] at he
    split at he
    · rename_i hp
      cases he
      exact h.store (hw a rfl) hp
    · cases he
  | scan a =>
    simp only [eexec] at he
    split at he
    · rename_i hp
      cases he
      exact h.phase (hw a rfl) (by rw [hp]; rfl) (by rw [hp]; rfl) (by intro e he; cases he) (by intro i m he; cases he; exact Nat.le_refl _)
        (by intro n sl e he; cases he) (by intro i m he b x hb; cases he; omega)
    · cases he
  | look a =>
    simp only [eexec] at he
    split at he
    · rename_i hp
      split at he
      · cases he
        exact h.look (hw a rfl) hp
      · cases he
    · cases he
  | take a slots =>
    simp only [eexec] at he
    split at he
    · rename_i i m hp
      split at he
      · rename_i hc
        obtain ⟨rfl, h2, hs⟩ := hc
        injection he with he
        obtain ⟨⟨n, st⟩, h1, he⟩ := bind_ok he
        injection he with he
        subst he
        exact h.take (hw a rfl) hp h2 hs h1
      · cases he
    · cases he
  | drop a =>
    simp only [eexec] at he
    split at he
    · cases he
      exact h.drop (hw a rfl)
    · cases he
  | swap a out lost =>
    simp only [eexec] at he
    split at he
    · rename_i hp
      split at he
      · rename_i ht
        cases he
        exact h.swap (hw a rfl) hp ht
      · cases he
    · cases he
  | fetch a =>
    simp only [eexec] at he
    split at he
    · rename_i hp
      split at he
      · rename_i ho
        split at he
        · cases he
          exact h.forget (hw a rfl) ho
        · cases he
          exact h.fetch (hw a rfl) hp ho
      · cases he
    · cases he
  | push a =>
    simp only [eexec] at he
    split at he
    · rename_i hp
      injection he with he
      obtain ⟨⟨b, st⟩, h1, he⟩ := bind_ok he
      injection he with he
      subst he
      exact h.push (hw a rfl) hp h1
    · cases he
  | bump a =>
    simp only [eexec] at he
    split at he
    · rename_i hp
      cases he
      have h1 := h.bump (a := a)
      exact h1.phase (a := a) (hw a rfl) (by rw [hp]; rfl) (by rw [hp]; rfl) (by intro e he; cases he) (by intro i m he; cases he)
        (by intro n sl e he; cases he) (by intro i m he; cases he)
    · cases he
  | done a =>
    simp only [eexec] at he
    split at he
    · rename_i hp
      cases he
      exact h.done (hw a rfl) hp.1
    · cases he
  | flush a =>
    cases he
    exact h.flush
  | block =>
    simp only [eexec] at he
    injection he with he
    obtain ⟨st, h1, he⟩ := bind_ok he
    injection he with he
    subst he
    exact h.block h1

theorem ERun.inv (h : ERun s) : EInv s := by
  induction h with
  | init n => exact .new n
  | step _ hw he ih => exact ih.step hw he

end

end Radix
