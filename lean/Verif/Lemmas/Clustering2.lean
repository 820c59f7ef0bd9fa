import Verif.Lemmas.Clustering
namespace Verif
namespace ClSt

theorem own_of_inJ {k : JoinKind} {p : CPc} (h : inJ k p = true) : own p = true := by cases p <;> simp_all [inJ, own]
theorem own_of_busy {p : CPc} (h : busy p = true) : own p = true := by cases p <;> simp_all [busy, own]
theorem own_of_afterLoad {p : CPc} (h : afterLoad p = true) : own p = true := by cases p <;> simp_all [afterLoad, own]
theorem own_of_inW {p : CPc} (h : inW p = true) : own p = true := by cases p <;> simp_all [inW, own]
theorem busy_of_inJ {k : JoinKind} {p : CPc} (h : inJ k p = true) : busy p = true := by cases p <;> simp_all [inJ, busy]
theorem busy_not_inW {p : CPc} (h : busy p = true) : inW p = false := by cases p <;> simp_all [inW, busy]
theorem inW_of_inW' {p : CPc} (h : inW' p = true) : inW p = true := by cases p <;> simp_all [inW, inW']

theorem CInv.res_own {s : ClSt} (I : s.CInv) {u : Nat} (h : s.res u = true) : own (s.pc u) = true := (I.resC u h).allOwn 0

set_option maxHeartbeats 1000000 in
theorem CInv.casStep {s : ClSt} (I : s.CInv) {u : Nat} (hpc : s.pc u = .cas) (hst : s.st u = .unmatched) :
    CInv { s with st := Function.update s.st u .inProgress, pc := Function.update s.pc u .store } := by
  set s' : ClSt := { s with st := Function.update s.st u .inProgress, pc := Function.update s.pc u .store } with hs'
  have hp : ∀ x, s'.pc x = if x = u then .store else s.pc x := fun x => Function.update_apply ..
  have hs : ∀ x, s'.st x = if x = u then .inProgress else s.st x := fun x => Function.update_apply ..
  have ht : s'.tgt = s.tgt := rfl
  have hc : s'.cid = s.cid := rfl
  have hr : s'.res = s.res := rfl
  have hpa : s'.partner = s.partner := rfl
  have a0 : own (s.pc u) = own .cas := by rw [hpc]
  conv at a0 => rhs; simp [own, pstored, busy, afterLoad, inW, inW', inAdd, inJ]
  have b0 : own .store = own .store := rfl
  conv at b0 => rhs; simp [own, pstored, busy, afterLoad, inW, inW', inAdd, inJ]
  have a1 : pstored (s.pc u) = pstored .cas := by rw [hpc]
  conv at a1 => rhs; simp [own, pstored, busy, afterLoad, inW, inW', inAdd, inJ]
  have b1 : pstored .store = pstored .store := rfl
  conv at b1 => rhs; simp [own, pstored, busy, afterLoad, inW, inW', inAdd, inJ]
  have a2 : busy (s.pc u) = busy .cas := by rw [hpc]
  conv at a2 => rhs; simp [own, pstored, busy, afterLoad, inW, inW', inAdd, inJ]
  have b2 : busy .store = busy .store := rfl
  conv at b2 => rhs; simp [own, pstored, busy, afterLoad, inW, inW', inAdd, inJ]
  have a3 : afterLoad (s.pc u) = afterLoad .cas := by rw [hpc]
  conv at a3 => rhs; simp [own, pstored, busy, afterLoad, inW, inW', inAdd, inJ]
  have b3 : afterLoad .store = afterLoad .store := rfl
  conv at b3 => rhs; simp [own, pstored, busy, afterLoad, inW, inW', inAdd, inJ]
  have a4 : inW (s.pc u) = inW .cas := by rw [hpc]
  conv at a4 => rhs; simp [own, pstored, busy, afterLoad, inW, inW', inAdd, inJ]
  have b4 : inW .store = inW .store := rfl
  conv at b4 => rhs; simp [own, pstored, busy, afterLoad, inW, inW', inAdd, inJ]
  have a5 : inW' (s.pc u) = inW' .cas := by rw [hpc]
  conv at a5 => rhs; simp [own, pstored, busy, afterLoad, inW, inW', inAdd, inJ]
  have b5 : inW' .store = inW' .store := rfl
  conv at b5 => rhs; simp [own, pstored, busy, afterLoad, inW, inW', inAdd, inJ]
  have a6 : inAdd (s.pc u) = inAdd .cas := by rw [hpc]
  conv at a6 => rhs; simp [own, pstored, busy, afterLoad, inW, inW', inAdd, inJ]
  have b6 : inAdd .store = inAdd .store := rfl
  conv at b6 => rhs; simp [own, pstored, busy, afterLoad, inW, inW', inAdd, inJ]
  have a7 : inJ .grab (s.pc u) = inJ .grab .cas := by rw [hpc]
  conv at a7 => rhs; simp [own, pstored, busy, afterLoad, inW, inW', inAdd, inJ]
  have b7 : inJ .grab .store = inJ .grab .store := rfl
  conv at b7 => rhs; simp [own, pstored, busy, afterLoad, inW, inW', inAdd, inJ]
  have a8 : inJ .cyc (s.pc u) = inJ .cyc .cas := by rw [hpc]
  conv at a8 => rhs; simp [own, pstored, busy, afterLoad, inW, inW', inAdd, inJ]
  have b8 : inJ .cyc .store = inJ .cyc .store := rfl
  conv at b8 => rhs; simp [own, pstored, busy, afterLoad, inW, inW', inAdd, inJ]
  have mono : ∀ x, own (s.pc x) = true → own (s'.pc x) = true := by
    intro x hx; rw [hp]; split
    · rfl
    · exact hx
  have htm : ∀ x, own (s.pc x) = true → s'.tgt x = s.tgt x := fun _ _ => rfl
  have c1 := @own_of_inJ
  have c2 := @own_of_busy
  have c3 := @own_of_afterLoad
  have hru : s.res u = false := by
    by_contra h
    have := I.res_own (by simpa using h)
    grind
  clear_value s'
  clear hs'
  constructor
  all_goals try simp only [ht, hc, hr, hpa]
  · have := I.tgt_ne; have := I.tgt_ne'; grind
  · have := I.tgt_ne'; grind
  · have := I.ownU; grind
  · have := I.doneM; grind
  · have := I.part; grind
  · have := I.past; grind
  · have := I.ldU; grind
  · have := I.grabI; grind
  · have := I.grabO; have := I.grabI; grind
  · have := I.grabX; grind
  · have := I.byRes; grind
  · intro z hz; refine CycMin.mono (s := s) ?_ htm mono; have := I.resC; grind
  · have := I.resM; grind
  · have := I.resW; grind
  · have := I.cycC; intro z hz; refine CycMin.mono (s := s) ?_ htm mono; grind
  · have := I.cycI; grind
  · have := I.walkI; intro x c m h; refine WalkInv.mono (s := s) ?_ htm mono; grind
  · have := I.chkI; intro x c m h; refine WalkInv.mono (s := s) ?_ htm mono; grind
  · have := I.noown; grind
  · have := I.repH; grind
  · have := I.jst; grind
  · have := I.wcid; have h2 := I.noown; grind

set_option maxHeartbeats 1000000 in
theorem RInv.casStep {s : ClSt} (R : s.RInv) (I : s.CInv) {u : Nat} (hpc : s.pc u = .cas) (hst : s.st u = .unmatched) :
    RInv { s with st := Function.update s.st u .inProgress, pc := Function.update s.pc u .store } := by
  set s' : ClSt := { s with st := Function.update s.st u .inProgress, pc := Function.update s.pc u .store } with hs'
  have hp : ∀ x, s'.pc x = if x = u then .store else s.pc x := fun x => Function.update_apply ..
  have hs : ∀ x, s'.st x = if x = u then .inProgress else s.st x := fun x => Function.update_apply ..
  have ht : s'.tgt = s.tgt := rfl
  have hc : s'.cid = s.cid := rfl
  have hr : s'.res = s.res := rfl
  have hpa : s'.partner = s.partner := rfl
  have a0 : own (s.pc u) = own .cas := by rw [hpc]
  conv at a0 => rhs; simp [own, pstored, busy, afterLoad, inW, inW', inAdd, inJ]
  have b0 : own .store = own .store := rfl
  conv at b0 => rhs; simp [own, pstored, busy, afterLoad, inW, inW', inAdd, inJ]
  have a1 : pstored (s.pc u) = pstored .cas := by rw [hpc]
  conv at a1 => rhs; simp [own, pstored, busy, afterLoad, inW, inW', inAdd, inJ]
  have b1 : pstored .store = pstored .store := rfl
  conv at b1 => rhs; simp [own, pstored, busy, afterLoad, inW, inW', inAdd, inJ]
  have a2 : busy (s.pc u) = busy .cas := by rw [hpc]
  conv at a2 => rhs; simp [own, pstored, busy, afterLoad, inW, inW', inAdd, inJ]
  have b2 : busy .store = busy .store := rfl
  conv at b2 => rhs; simp [own, pstored, busy, afterLoad, inW, inW', inAdd, inJ]
  have a3 : afterLoad (s.pc u) = afterLoad .cas := by rw [hpc]
  conv at a3 => rhs; simp [own, pstored, busy, afterLoad, inW, inW', inAdd, inJ]
  have b3 : afterLoad .store = afterLoad .store := rfl
  conv at b3 => rhs; simp [own, pstored, busy, afterLoad, inW, inW', inAdd, inJ]
  have a4 : inW (s.pc u) = inW .cas := by rw [hpc]
  conv at a4 => rhs; simp [own, pstored, busy, afterLoad, inW, inW', inAdd, inJ]
  have b4 : inW .store = inW .store := rfl
  conv at b4 => rhs; simp [own, pstored, busy, afterLoad, inW, inW', inAdd, inJ]
  have a5 : inW' (s.pc u) = inW' .cas := by rw [hpc]
  conv at a5 => rhs; simp [own, pstored, busy, afterLoad, inW, inW', inAdd, inJ]
  have b5 : inW' .store = inW' .store := rfl
  conv at b5 => rhs; simp [own, pstored, busy, afterLoad, inW, inW', inAdd, inJ]
  have a6 : inAdd (s.pc u) = inAdd .cas := by rw [hpc]
  conv at a6 => rhs; simp [own, pstored, busy, afterLoad, inW, inW', inAdd, inJ]
  have b6 : inAdd .store = inAdd .store := rfl
  conv at b6 => rhs; simp [own, pstored, busy, afterLoad, inW, inW', inAdd, inJ]
  have a7 : inJ .grab (s.pc u) = inJ .grab .cas := by rw [hpc]
  conv at a7 => rhs; simp [own, pstored, busy, afterLoad, inW, inW', inAdd, inJ]
  have b7 : inJ .grab .store = inJ .grab .store := rfl
  conv at b7 => rhs; simp [own, pstored, busy, afterLoad, inW, inW', inAdd, inJ]
  have a8 : inJ .cyc (s.pc u) = inJ .cyc .cas := by rw [hpc]
  conv at a8 => rhs; simp [own, pstored, busy, afterLoad, inW, inW', inAdd, inJ]
  have b8 : inJ .cyc .store = inJ .cyc .store := rfl
  conv at b8 => rhs; simp [own, pstored, busy, afterLoad, inW, inW', inAdd, inJ]
  have mono : ∀ x, own (s.pc x) = true → own (s'.pc x) = true := by
    intro x hx; rw [hp]; split
    · rfl
    · exact hx
  have htm : ∀ x, own (s.pc x) = true → s'.tgt x = s.tgt x := fun _ _ => rfl
  have c1 := @own_of_inJ
  have c2 := @own_of_busy
  have c3 := @own_of_afterLoad
  have hru : s.res u = false := by
    by_contra h
    have := I.res_own (by simpa using h)
    grind
  clear_value s'
  clear hs'
  constructor
  all_goals try simp only [ht, hc, hr, hpa]
  · have := R.busyI; grind
  · have := R.root; have := I.noown; grind
  · have := R.held; grind
  · have := R.repM; grind

set_option maxHeartbeats 1000000 in
theorem CInv.storeStep {s : ClSt} (I : s.CInv) {u : Nat} (hpc : s.pc u = .store) :
    CInv { s with partner := Function.update s.partner u (s.tgt u), pc := Function.update s.pc u .loadV } := by
  set s' : ClSt := { s with partner := Function.update s.partner u (s.tgt u), pc := Function.update s.pc u .loadV } with hs'
  have hp : ∀ x, s'.pc x = if x = u then .loadV else s.pc x := fun x => Function.update_apply ..
  have hs : s'.st = s.st := rfl
  have ht : s'.tgt = s.tgt := rfl
  have hc : s'.cid = s.cid := rfl
  have hr : s'.res = s.res := rfl
  have hpa : ∀ x, s'.partner x = if x = u then (s.tgt u) else s.partner x := fun x => Function.update_apply ..
  have a0 : own (s.pc u) = own .store := by rw [hpc]
  conv at a0 => rhs; simp [own, pstored, busy, afterLoad, inW, inW', inAdd, inJ]
  have b0 : own .loadV = own .loadV := rfl
  conv at b0 => rhs; simp [own, pstored, busy, afterLoad, inW, inW', inAdd, inJ]
  have a1 : pstored (s.pc u) = pstored .store := by rw [hpc]
  conv at a1 => rhs; simp [own, pstored, busy, afterLoad, inW, inW', inAdd, inJ]
  have b1 : pstored .loadV = pstored .loadV := rfl
  conv at b1 => rhs; simp [own, pstored, busy, afterLoad, inW, inW', inAdd, inJ]
  have a2 : busy (s.pc u) = busy .store := by rw [hpc]
  conv at a2 => rhs; simp [own, pstored, busy, afterLoad, inW, inW', inAdd, inJ]
  have b2 : busy .loadV = busy .loadV := rfl
  conv at b2 => rhs; simp [own, pstored, busy, afterLoad, inW, inW', inAdd, inJ]
  have a3 : afterLoad (s.pc u) = afterLoad .store := by rw [hpc]
  conv at a3 => rhs; simp [own, pstored, busy, afterLoad, inW, inW', inAdd, inJ]
  have b3 : afterLoad .loadV = afterLoad .loadV := rfl
  conv at b3 => rhs; simp [own, pstored, busy, afterLoad, inW, inW', inAdd, inJ]
  have a4 : inW (s.pc u) = inW .store := by rw [hpc]
  conv at a4 => rhs; simp [own, pstored, busy, afterLoad, inW, inW', inAdd, inJ]
  have b4 : inW .loadV = inW .loadV := rfl
  conv at b4 => rhs; simp [own, pstored, busy, afterLoad, inW, inW', inAdd, inJ]
  have a5 : inW' (s.pc u) = inW' .store := by rw [hpc]
  conv at a5 => rhs; simp [own, pstored, busy, afterLoad, inW, inW', inAdd, inJ]
  have b5 : inW' .loadV = inW' .loadV := rfl
  conv at b5 => rhs; simp [own, pstored, busy, afterLoad, inW, inW', inAdd, inJ]
  have a6 : inAdd (s.pc u) = inAdd .store := by rw [hpc]
  conv at a6 => rhs; simp [own, pstored, busy, afterLoad, inW, inW', inAdd, inJ]
  have b6 : inAdd .loadV = inAdd .loadV := rfl
  conv at b6 => rhs; simp [own, pstored, busy, afterLoad, inW, inW', inAdd, inJ]
  have a7 : inJ .grab (s.pc u) = inJ .grab .store := by rw [hpc]
  conv at a7 => rhs; simp [own, pstored, busy, afterLoad, inW, inW', inAdd, inJ]
  have b7 : inJ .grab .loadV = inJ .grab .loadV := rfl
  conv at b7 => rhs; simp [own, pstored, busy, afterLoad, inW, inW', inAdd, inJ]
  have a8 : inJ .cyc (s.pc u) = inJ .cyc .store := by rw [hpc]
  conv at a8 => rhs; simp [own, pstored, busy, afterLoad, inW, inW', inAdd, inJ]
  have b8 : inJ .cyc .loadV = inJ .cyc .loadV := rfl
  conv at b8 => rhs; simp [own, pstored, busy, afterLoad, inW, inW', inAdd, inJ]
  have mono : ∀ x, own (s.pc x) = true → own (s'.pc x) = true := by
    intro x hx; rw [hp]; split
    · rfl
    · exact hx
  have htm : ∀ x, own (s.pc x) = true → s'.tgt x = s.tgt x := fun _ _ => rfl
  have c1 := @own_of_inJ
  have c2 := @own_of_busy
  have c3 := @own_of_afterLoad
  have hru : s.res u = false := by
    by_contra h
    have := (I.resW u (by simpa using h)).1
    grind
  clear_value s'
  clear hs'
  constructor
  all_goals try simp only [ht, hs, hc, hr]
  · have := I.tgt_ne; have := I.tgt_ne'; grind
  · have := I.tgt_ne'; grind
  · have := I.ownU; grind
  · have := I.doneM; grind
  · have := I.part; grind
  · have := I.past; grind
  · have := I.ldU; grind
  · have := I.grabI; grind
  · have := I.grabO; have := I.grabI; grind
  · have := I.grabX; grind
  · have := I.byRes; grind
  · intro z hz; refine CycMin.mono (s := s) ?_ htm mono; have := I.resC; grind
  · have := I.resM; grind
  · have := I.resW; grind
  · have := I.cycC; intro z hz; refine CycMin.mono (s := s) ?_ htm mono; grind
  · have := I.cycI; grind
  · have := I.walkI; intro x c m h; refine WalkInv.mono (s := s) ?_ htm mono; grind
  · have := I.chkI; intro x c m h; refine WalkInv.mono (s := s) ?_ htm mono; grind
  · have := I.noown; grind
  · have := I.repH; grind
  · have := I.jst; grind
  · have := I.wcid; have h2 := I.noown; grind

set_option maxHeartbeats 1000000 in
theorem RInv.storeStep {s : ClSt} (R : s.RInv) (I : s.CInv) {u : Nat} (hpc : s.pc u = .store) :
    RInv { s with partner := Function.update s.partner u (s.tgt u), pc := Function.update s.pc u .loadV } := by
  set s' : ClSt := { s with partner := Function.update s.partner u (s.tgt u), pc := Function.update s.pc u .loadV } with hs'
  have hp : ∀ x, s'.pc x = if x = u then .loadV else s.pc x := fun x => Function.update_apply ..
  have hs : s'.st = s.st := rfl
  have ht : s'.tgt = s.tgt := rfl
  have hc : s'.cid = s.cid := rfl
  have hr : s'.res = s.res := rfl
  have hpa : ∀ x, s'.partner x = if x = u then (s.tgt u) else s.partner x := fun x => Function.update_apply ..
  have a0 : own (s.pc u) = own .store := by rw [hpc]
  conv at a0 => rhs; simp [own, pstored, busy, afterLoad, inW, inW', inAdd, inJ]
  have b0 : own .loadV = own .loadV := rfl
  conv at b0 => rhs; simp [own, pstored, busy, afterLoad, inW, inW', inAdd, inJ]
  have a1 : pstored (s.pc u) = pstored .store := by rw [hpc]
  conv at a1 => rhs; simp [own, pstored, busy, afterLoad, inW, inW', inAdd, inJ]
  have b1 : pstored .loadV = pstored .loadV := rfl
  conv at b1 => rhs; simp [own, pstored, busy, afterLoad, inW, inW', inAdd, inJ]
  have a2 : busy (s.pc u) = busy .store := by rw [hpc]
  conv at a2 => rhs; simp [own, pstored, busy, afterLoad, inW, inW', inAdd, inJ]
  have b2 : busy .loadV = busy .loadV := rfl
  conv at b2 => rhs; simp [own, pstored, busy, afterLoad, inW, inW', inAdd, inJ]
  have a3 : afterLoad (s.pc u) = afterLoad .store := by rw [hpc]
  conv at a3 => rhs; simp [own, pstored, busy, afterLoad, inW, inW', inAdd, inJ]
  have b3 : afterLoad .loadV = afterLoad .loadV := rfl
  conv at b3 => rhs; simp [own, pstored, busy, afterLoad, inW, inW', inAdd, inJ]
  have a4 : inW (s.pc u) = inW .store := by rw [hpc]
  conv at a4 => rhs; simp [own, pstored, busy, afterLoad, inW, inW', inAdd, inJ]
  have b4 : inW .loadV = inW .loadV := rfl
  conv at b4 => rhs; simp [own, pstored, busy, afterLoad, inW, inW', inAdd, inJ]
  have a5 : inW' (s.pc u) = inW' .store := by rw [hpc]
  conv at a5 => rhs; simp [own, pstored, busy, afterLoad, inW, inW', inAdd, inJ]
  have b5 : inW' .loadV = inW' .loadV := rfl
  conv at b5 => rhs; simp [own, pstored, busy, afterLoad, inW, inW', inAdd, inJ]
  have a6 : inAdd (s.pc u) = inAdd .store := by rw [hpc]
  conv at a6 => rhs; simp [own, pstored, busy, afterLoad, inW, inW', inAdd, inJ]
  have b6 : inAdd .loadV = inAdd .loadV := rfl
  conv at b6 => rhs; simp [own, pstored, busy, afterLoad, inW, inW', inAdd, inJ]
  have a7 : inJ .grab (s.pc u) = inJ .grab .store := by rw [hpc]
  conv at a7 => rhs; simp [own, pstored, busy, afterLoad, inW, inW', inAdd, inJ]
  have b7 : inJ .grab .loadV = inJ .grab .loadV := rfl
  conv at b7 => rhs; simp [own, pstored, busy, afterLoad, inW, inW', inAdd, inJ]
  have a8 : inJ .cyc (s.pc u) = inJ .cyc .store := by rw [hpc]
  conv at a8 => rhs; simp [own, pstored, busy, afterLoad, inW, inW', inAdd, inJ]
  have b8 : inJ .cyc .loadV = inJ .cyc .loadV := rfl
  conv at b8 => rhs; simp [own, pstored, busy, afterLoad, inW, inW', inAdd, inJ]
  have mono : ∀ x, own (s.pc x) = true → own (s'.pc x) = true := by
    intro x hx; rw [hp]; split
    · rfl
    · exact hx
  have htm : ∀ x, own (s.pc x) = true → s'.tgt x = s.tgt x := fun _ _ => rfl
  have c1 := @own_of_inJ
  have c2 := @own_of_busy
  have c3 := @own_of_afterLoad
  have hru : s.res u = false := by
    by_contra h
    have := (I.resW u (by simpa using h)).1
    grind
  clear_value s'
  clear hs'
  constructor
  all_goals try simp only [ht, hs, hc, hr]
  · have := R.busyI; grind
  · have := R.root; have := I.noown; grind
  · have := R.held; grind
  · have := R.repM; grind

set_option maxHeartbeats 1000000 in
theorem CInv.casVStep {s : ClSt} (I : s.CInv) {u : Nat} (hpc : s.pc u = .casV) (hst : s.st (s.tgt u) = .unmatched) :
    CInv { s with st := Function.update s.st (s.tgt u) .inProgress, pc := Function.update s.pc u (.jload .grab (s.tgt u)) } := by
  set s' : ClSt := { s with st := Function.update s.st (s.tgt u) .inProgress, pc := Function.update s.pc u (.jload .grab (s.tgt u)) } with hs'
  have hp : ∀ x, s'.pc x = if x = u then (.jload .grab (s.tgt u)) else s.pc x := fun x => Function.update_apply ..
  have hs : ∀ x, s'.st x = if x = (s.tgt u) then .inProgress else s.st x := fun x => Function.update_apply ..
  have ht : s'.tgt = s.tgt := rfl
  have hc : s'.cid = s.cid := rfl
  have hr : s'.res = s.res := rfl
  have hpa : s'.partner = s.partner := rfl
  have a0 : own (s.pc u) = own .casV := by rw [hpc]
  conv at a0 => rhs; simp [own, pstored, busy, afterLoad, inW, inW', inAdd, inJ]
  have b0 : own (.jload .grab (s.tgt u)) = own (.jload .grab (s.tgt u)) := rfl
  conv at b0 => rhs; simp [own, pstored, busy, afterLoad, inW, inW', inAdd, inJ]
  have a1 : pstored (s.pc u) = pstored .casV := by rw [hpc]
  conv at a1 => rhs; simp [own, pstored, busy, afterLoad, inW, inW', inAdd, inJ]
  have b1 : pstored (.jload .grab (s.tgt u)) = pstored (.jload .grab (s.tgt u)) := rfl
  conv at b1 => rhs; simp [own, pstored, busy, afterLoad, inW, inW', inAdd, inJ]
  have a2 : busy (s.pc u) = busy .casV := by rw [hpc]
  conv at a2 => rhs; simp [own, pstored, busy, afterLoad, inW, inW', inAdd, inJ]
  have b2 : busy (.jload .grab (s.tgt u)) = busy (.jload .grab (s.tgt u)) := rfl
  conv at b2 => rhs; simp [own, pstored, busy, afterLoad, inW, inW', inAdd, inJ]
  have a3 : afterLoad (s.pc u) = afterLoad .casV := by rw [hpc]
  conv at a3 => rhs; simp [own, pstored, busy, afterLoad, inW, inW', inAdd, inJ]
  have b3 : afterLoad (.jload .grab (s.tgt u)) = afterLoad (.jload .grab (s.tgt u)) := rfl
  conv at b3 => rhs; simp [own, pstored, busy, afterLoad, inW, inW', inAdd, inJ]
  have a4 : inW (s.pc u) = inW .casV := by rw [hpc]
  conv at a4 => rhs; simp [own, pstored, busy, afterLoad, inW, inW', inAdd, inJ]
  have b4 : inW (.jload .grab (s.tgt u)) = inW (.jload .grab (s.tgt u)) := rfl
  conv at b4 => rhs; simp [own, pstored, busy, afterLoad, inW, inW', inAdd, inJ]
  have a5 : inW' (s.pc u) = inW' .casV := by rw [hpc]
  conv at a5 => rhs; simp [own, pstored, busy, afterLoad, inW, inW', inAdd, inJ]
  have b5 : inW' (.jload .grab (s.tgt u)) = inW' (.jload .grab (s.tgt u)) := rfl
  conv at b5 => rhs; simp [own, pstored, busy, afterLoad, inW, inW', inAdd, inJ]
  have a6 : inAdd (s.pc u) = inAdd .casV := by rw [hpc]
  conv at a6 => rhs; simp [own, pstored, busy, afterLoad, inW, inW', inAdd, inJ]
  have b6 : inAdd (.jload .grab (s.tgt u)) = inAdd (.jload .grab (s.tgt u)) := rfl
  conv at b6 => rhs; simp [own, pstored, busy, afterLoad, inW, inW', inAdd, inJ]
  have a7 : inJ .grab (s.pc u) = inJ .grab .casV := by rw [hpc]
  conv at a7 => rhs; simp [own, pstored, busy, afterLoad, inW, inW', inAdd, inJ]
  have b7 : inJ .grab (.jload .grab (s.tgt u)) = inJ .grab (.jload .grab (s.tgt u)) := rfl
  conv at b7 => rhs; simp [own, pstored, busy, afterLoad, inW, inW', inAdd, inJ]
  have a8 : inJ .cyc (s.pc u) = inJ .cyc .casV := by rw [hpc]
  conv at a8 => rhs; simp [own, pstored, busy, afterLoad, inW, inW', inAdd, inJ]
  have b8 : inJ .cyc (.jload .grab (s.tgt u)) = inJ .cyc (.jload .grab (s.tgt u)) := rfl
  conv at b8 => rhs; simp [own, pstored, busy, afterLoad, inW, inW', inAdd, inJ]
  have mono : ∀ x, own (s.pc x) = true → own (s'.pc x) = true := by
    intro x hx; rw [hp]; split
    · rfl
    · exact hx
  have htm : ∀ x, own (s.pc x) = true → s'.tgt x = s.tgt x := fun _ _ => rfl
  have c1 := @own_of_inJ
  have c2 := @own_of_busy
  have c3 := @own_of_afterLoad
  have hru : s.res u = false := by
    by_contra h
    have := (I.resW u (by simpa using h)).1
    grind
  have hov : own (s.pc (s.tgt u)) = false := by
    have := I.ownU (s.tgt u); grind
  have hvu : s.tgt u ≠ u := I.tgt_ne u (by grind)
  have hcv : s.cid (s.tgt u) = s.tgt u := I.noown _ hov
  have hsu : s.st u = .inProgress := by
    have h1 := I.ownU u (by grind)
    have h2 := I.byRes u (by grind) (by grind)
    have h3 := I.resC
    have : s.st u ≠ .matched := by
      intro hm
      obtain ⟨z, hz, hzu⟩ := h2 hm
      have := (h3 z hz).allOwn 2
      simp only [Function.iterate_succ, Function.iterate_zero, Function.comp, id] at this
      rw [hzu] at this; grind
    cases hh : s.st u <;> simp_all
  clear_value s'
  clear hs'
  constructor
  all_goals try simp only [ht, hc, hr, hpa]
  · have := I.tgt_ne; have := I.tgt_ne'; grind
  · have := I.tgt_ne'; grind
  · have := I.ownU; grind
  · have := I.doneM; grind
  · have := I.part; grind
  · have := I.past; grind
  · have := I.ldU; grind
  · have := I.grabI; grind
  · have := I.grabO; have := I.grabI; grind
  · have := I.grabX; have h2 := I.grabI; grind
  · have := I.byRes; grind
  · intro z hz; refine CycMin.mono (s := s) ?_ htm mono; have := I.resC; grind
  · have := I.resM; grind
  · have := I.resW; grind
  · have := I.cycC; intro z hz; refine CycMin.mono (s := s) ?_ htm mono; grind
  · have := I.cycI; grind
  · have := I.walkI; intro x c m h; refine WalkInv.mono (s := s) ?_ htm mono; grind
  · have := I.chkI; intro x c m h; refine WalkInv.mono (s := s) ?_ htm mono; grind
  · have := I.noown; grind
  · have := I.repH; grind
  · have := I.jst; grind
  · have := I.wcid; have h2 := I.noown; grind

set_option maxHeartbeats 1000000 in
theorem RInv.casVStep {s : ClSt} (R : s.RInv) (I : s.CInv) {u : Nat} (hpc : s.pc u = .casV) (hst : s.st (s.tgt u) = .unmatched) :
    RInv { s with st := Function.update s.st (s.tgt u) .inProgress, pc := Function.update s.pc u (.jload .grab (s.tgt u)) } := by
  set s' : ClSt := { s with st := Function.update s.st (s.tgt u) .inProgress, pc := Function.update s.pc u (.jload .grab (s.tgt u)) } with hs'
  have hp : ∀ x, s'.pc x = if x = u then (.jload .grab (s.tgt u)) else s.pc x := fun x => Function.update_apply ..
  have hs : ∀ x, s'.st x = if x = (s.tgt u) then .inProgress else s.st x := fun x => Function.update_apply ..
  have ht : s'.tgt = s.tgt := rfl
  have hc : s'.cid = s.cid := rfl
  have hr : s'.res = s.res := rfl
  have hpa : s'.partner = s.partner := rfl
  have a0 : own (s.pc u) = own .casV := by rw [hpc]
  conv at a0 => rhs; simp [own, pstored, busy, afterLoad, inW, inW', inAdd, inJ]
  have b0 : own (.jload .grab (s.tgt u)) = own (.jload .grab (s.tgt u)) := rfl
  conv at b0 => rhs; simp [own, pstored, busy, afterLoad, inW, inW', inAdd, inJ]
  have a1 : pstored (s.pc u) = pstored .casV := by rw [hpc]
  conv at a1 => rhs; simp [own, pstored, busy, afterLoad, inW, inW', inAdd, inJ]
  have b1 : pstored (.jload .grab (s.tgt u)) = pstored (.jload .grab (s.tgt u)) := rfl
  conv at b1 => rhs; simp [own, pstored, busy, afterLoad, inW, inW', inAdd, inJ]
  have a2 : busy (s.pc u) = busy .casV := by rw [hpc]
  conv at a2 => rhs; simp [own, pstored, busy, afterLoad, inW, inW', inAdd, inJ]
  have b2 : busy (.jload .grab (s.tgt u)) = busy (.jload .grab (s.tgt u)) := rfl
  conv at b2 => rhs; simp [own, pstored, busy, afterLoad, inW, inW', inAdd, inJ]
  have a3 : afterLoad (s.pc u) = afterLoad .casV := by rw [hpc]
  conv at a3 => rhs; simp [own, pstored, busy, afterLoad, inW, inW', inAdd, inJ]
  have b3 : afterLoad (.jload .grab (s.tgt u)) = afterLoad (.jload .grab (s.tgt u)) := rfl
  conv at b3 => rhs; simp [own, pstored, busy, afterLoad, inW, inW', inAdd, inJ]
  have a4 : inW (s.pc u) = inW .casV := by rw [hpc]
  conv at a4 => rhs; simp [own, pstored, busy, afterLoad, inW, inW', inAdd, inJ]
  have b4 : inW (.jload .grab (s.tgt u)) = inW (.jload .grab (s.tgt u)) := rfl
  conv at b4 => rhs; simp [own, pstored, busy, afterLoad, inW, inW', inAdd, inJ]
  have a5 : inW' (s.pc u) = inW' .casV := by rw [hpc]
  conv at a5 => rhs; simp [own, pstored, busy, afterLoad, inW, inW', inAdd, inJ]
  have b5 : inW' (.jload .grab (s.tgt u)) = inW' (.jload .grab (s.tgt u)) := rfl
  conv at b5 => rhs; simp [own, pstored, busy, afterLoad, inW, inW', inAdd, inJ]
  have a6 : inAdd (s.pc u) = inAdd .casV := by rw [hpc]
  conv at a6 => rhs; simp [own, pstored, busy, afterLoad, inW, inW', inAdd, inJ]
  have b6 : inAdd (.jload .grab (s.tgt u)) = inAdd (.jload .grab (s.tgt u)) := rfl
  conv at b6 => rhs; simp [own, pstored, busy, afterLoad, inW, inW', inAdd, inJ]
  have a7 : inJ .grab (s.pc u) = inJ .grab .casV := by rw [hpc]
  conv at a7 => rhs; simp [own, pstored, busy, afterLoad, inW, inW', inAdd, inJ]
  have b7 : inJ .grab (.jload .grab (s.tgt u)) = inJ .grab (.jload .grab (s.tgt u)) := rfl
  conv at b7 => rhs; simp [own, pstored, busy, afterLoad, inW, inW', inAdd, inJ]
  have a8 : inJ .cyc (s.pc u) = inJ .cyc .casV := by rw [hpc]
  conv at a8 => rhs; simp [own, pstored, busy, afterLoad, inW, inW', inAdd, inJ]
  have b8 : inJ .cyc (.jload .grab (s.tgt u)) = inJ .cyc (.jload .grab (s.tgt u)) := rfl
  conv at b8 => rhs; simp [own, pstored, busy, afterLoad, inW, inW', inAdd, inJ]
  have mono : ∀ x, own (s.pc x) = true → own (s'.pc x) = true := by
    intro x hx; rw [hp]; split
    · rfl
    · exact hx
  have htm : ∀ x, own (s.pc x) = true → s'.tgt x = s.tgt x := fun _ _ => rfl
  have c1 := @own_of_inJ
  have c2 := @own_of_busy
  have c3 := @own_of_afterLoad
  have hru : s.res u = false := by
    by_contra h
    have := (I.resW u (by simpa using h)).1
    grind
  have hov : own (s.pc (s.tgt u)) = false := by
    have := I.ownU (s.tgt u); grind
  have hvu : s.tgt u ≠ u := I.tgt_ne u (by grind)
  have hcv : s.cid (s.tgt u) = s.tgt u := I.noown _ hov
  have hsu : s.st u = .inProgress := by
    have h1 := I.ownU u (by grind)
    have h2 := I.byRes u (by grind) (by grind)
    have h3 := I.resC
    have : s.st u ≠ .matched := by
      intro hm
      obtain ⟨z, hz, hzu⟩ := h2 hm
      have := (h3 z hz).allOwn 2
      simp only [Function.iterate_succ, Function.iterate_zero, Function.comp, id] at this
      rw [hzu] at this; grind
    cases hh : s.st u <;> simp_all
  clear_value s'
  clear hs'
  constructor
  all_goals try simp only [ht, hc, hr, hpa]
  · have := R.busyI; grind
  · have := R.root; have := I.noown; grind
  · have := R.held; grind
  · have := R.repM; grind

set_option maxHeartbeats 1000000 in
theorem CInv.jwriteStep {s : ClSt} (I : s.CInv) {u : Nat} {k : JoinKind} {rep : Nat} (hpc : s.pc u = .jwrite k rep) :
    CInv { s with cid := Function.update s.cid u rep, pc := Function.update s.pc u (.jadd k rep) } := by
  set s' : ClSt := { s with cid := Function.update s.cid u rep, pc := Function.update s.pc u (.jadd k rep) } with hs'
  have hp : ∀ x, s'.pc x = if x = u then (.jadd k rep) else s.pc x := fun x => Function.update_apply ..
  have hs : s'.st = s.st := rfl
  have ht : s'.tgt = s.tgt := rfl
  have hc : ∀ x, s'.cid x = if x = u then rep else s.cid x := fun x => Function.update_apply ..
  have hr : s'.res = s.res := rfl
  have hpa : s'.partner = s.partner := rfl
  have a0 : own (s.pc u) = own (.jwrite k rep) := by rw [hpc]
  conv at a0 => rhs; simp [own, pstored, busy, afterLoad, inW, inW', inAdd, inJ]
  have b0 : own (.jadd k rep) = own (.jadd k rep) := rfl
  conv at b0 => rhs; simp [own, pstored, busy, afterLoad, inW, inW', inAdd, inJ]
  have a1 : pstored (s.pc u) = pstored (.jwrite k rep) := by rw [hpc]
  conv at a1 => rhs; simp [own, pstored, busy, afterLoad, inW, inW', inAdd, inJ]
  have b1 : pstored (.jadd k rep) = pstored (.jadd k rep) := rfl
  conv at b1 => rhs; simp [own, pstored, busy, afterLoad, inW, inW', inAdd, inJ]
  have a2 : busy (s.pc u) = busy (.jwrite k rep) := by rw [hpc]
  conv at a2 => rhs; simp [own, pstored, busy, afterLoad, inW, inW', inAdd, inJ]
  have b2 : busy (.jadd k rep) = busy (.jadd k rep) := rfl
  conv at b2 => rhs; simp [own, pstored, busy, afterLoad, inW, inW', inAdd, inJ]
  have a3 : afterLoad (s.pc u) = afterLoad (.jwrite k rep) := by rw [hpc]
  conv at a3 => rhs; simp [own, pstored, busy, afterLoad, inW, inW', inAdd, inJ]
  have b3 : afterLoad (.jadd k rep) = afterLoad (.jadd k rep) := rfl
  conv at b3 => rhs; simp [own, pstored, busy, afterLoad, inW, inW', inAdd, inJ]
  have a4 : inW (s.pc u) = inW (.jwrite k rep) := by rw [hpc]
  conv at a4 => rhs; simp [own, pstored, busy, afterLoad, inW, inW', inAdd, inJ]
  have b4 : inW (.jadd k rep) = inW (.jadd k rep) := rfl
  conv at b4 => rhs; simp [own, pstored, busy, afterLoad, inW, inW', inAdd, inJ]
  have a5 : inW' (s.pc u) = inW' (.jwrite k rep) := by rw [hpc]
  conv at a5 => rhs; simp [own, pstored, busy, afterLoad, inW, inW', inAdd, inJ]
  have b5 : inW' (.jadd k rep) = inW' (.jadd k rep) := rfl
  conv at b5 => rhs; simp [own, pstored, busy, afterLoad, inW, inW', inAdd, inJ]
  have a6 : inAdd (s.pc u) = inAdd (.jwrite k rep) := by rw [hpc]
  conv at a6 => rhs; simp [own, pstored, busy, afterLoad, inW, inW', inAdd, inJ]
  have b6 : inAdd (.jadd k rep) = inAdd (.jadd k rep) := rfl
  conv at b6 => rhs; simp [own, pstored, busy, afterLoad, inW, inW', inAdd, inJ]
  have a7 : inJ .grab (s.pc u) = inJ .grab (.jwrite k rep) := by rw [hpc]
  conv at a7 => rhs; simp [own, pstored, busy, afterLoad, inW, inW', inAdd, inJ]
  have b7 : inJ .grab (.jadd k rep) = inJ .grab (.jadd k rep) := rfl
  conv at b7 => rhs; simp [own, pstored, busy, afterLoad, inW, inW', inAdd, inJ]
  have a8 : inJ .cyc (s.pc u) = inJ .cyc (.jwrite k rep) := by rw [hpc]
  conv at a8 => rhs; simp [own, pstored, busy, afterLoad, inW, inW', inAdd, inJ]
  have b8 : inJ .cyc (.jadd k rep) = inJ .cyc (.jadd k rep) := rfl
  conv at b8 => rhs; simp [own, pstored, busy, afterLoad, inW, inW', inAdd, inJ]
  have mono : ∀ x, own (s.pc x) = true → own (s'.pc x) = true := by
    intro x hx; rw [hp]; split
    · rfl
    · exact hx
  have htm : ∀ x, own (s.pc x) = true → s'.tgt x = s.tgt x := fun _ _ => rfl
  have c1 := @own_of_inJ
  have c2 := @own_of_busy
  have c3 := @own_of_afterLoad
  clear_value s'
  clear hs'
  constructor
  all_goals try simp only [ht, hs, hr, hpa]
  · have := I.tgt_ne; have := I.tgt_ne'; grind
  · have := I.tgt_ne'; grind
  · have := I.ownU; grind
  · have := I.doneM; grind
  · have := I.part; grind
  · have h1 := I.past; have h2 := I.past u; cases k <;> grind
  · have := I.ldU; grind
  · have := I.grabI; grind
  · have := I.grabO; have := I.grabI; grind
  · have := I.grabX; grind
  · have := I.byRes; grind
  · intro z hz; refine CycMin.mono (s := s) ?_ htm mono; have := I.resC; grind
  · have := I.resM; grind
  · have := I.resW; grind
  · have := I.cycC; intro z hz; refine CycMin.mono (s := s) ?_ htm mono; grind
  · have := I.cycI; grind
  · have := I.walkI; intro x c m h; refine WalkInv.mono (s := s) ?_ htm mono; grind
  · have := I.chkI; intro x c m h; refine WalkInv.mono (s := s) ?_ htm mono; grind
  · have := I.noown; grind
  · have h1 := I.repH; grind
  · have := I.jst; grind
  · have := I.wcid; have h2 := I.noown; grind

set_option maxHeartbeats 1000000 in
theorem RInv.jwriteStep {s : ClSt} (R : s.RInv) (I : s.CInv) {u : Nat} {k : JoinKind} {rep : Nat} (hpc : s.pc u = .jwrite k rep) :
    RInv { s with cid := Function.update s.cid u rep, pc := Function.update s.pc u (.jadd k rep) } := by
  set s' : ClSt := { s with cid := Function.update s.cid u rep, pc := Function.update s.pc u (.jadd k rep) } with hs'
  have hp : ∀ x, s'.pc x = if x = u then (.jadd k rep) else s.pc x := fun x => Function.update_apply ..
  have hs : s'.st = s.st := rfl
  have ht : s'.tgt = s.tgt := rfl
  have hc : ∀ x, s'.cid x = if x = u then rep else s.cid x := fun x => Function.update_apply ..
  have hr : s'.res = s.res := rfl
  have hpa : s'.partner = s.partner := rfl
  have a0 : own (s.pc u) = own (.jwrite k rep) := by rw [hpc]
  conv at a0 => rhs; simp [own, pstored, busy, afterLoad, inW, inW', inAdd, inJ]
  have b0 : own (.jadd k rep) = own (.jadd k rep) := rfl
  conv at b0 => rhs; simp [own, pstored, busy, afterLoad, inW, inW', inAdd, inJ]
  have a1 : pstored (s.pc u) = pstored (.jwrite k rep) := by rw [hpc]
  conv at a1 => rhs; simp [own, pstored, busy, afterLoad, inW, inW', inAdd, inJ]
  have b1 : pstored (.jadd k rep) = pstored (.jadd k rep) := rfl
  conv at b1 => rhs; simp [own, pstored, busy, afterLoad, inW, inW', inAdd, inJ]
  have a2 : busy (s.pc u) = busy (.jwrite k rep) := by rw [hpc]
  conv at a2 => rhs; simp [own, pstored, busy, afterLoad, inW, inW', inAdd, inJ]
  have b2 : busy (.jadd k rep) = busy (.jadd k rep) := rfl
  conv at b2 => rhs; simp [own, pstored, busy, afterLoad, inW, inW', inAdd, inJ]
  have a3 : afterLoad (s.pc u) = afterLoad (.jwrite k rep) := by rw [hpc]
  conv at a3 => rhs; simp [own, pstored, busy, afterLoad, inW, inW', inAdd, inJ]
  have b3 : afterLoad (.jadd k rep) = afterLoad (.jadd k rep) := rfl
  conv at b3 => rhs; simp [own, pstored, busy, afterLoad, inW, inW', inAdd, inJ]
  have a4 : inW (s.pc u) = inW (.jwrite k rep) := by rw [hpc]
  conv at a4 => rhs; simp [own, pstored, busy, afterLoad, inW, inW', inAdd, inJ]
  have b4 : inW (.jadd k rep) = inW (.jadd k rep) := rfl
  conv at b4 => rhs; simp [own, pstored, busy, afterLoad, inW, inW', inAdd, inJ]
  have a5 : inW' (s.pc u) = inW' (.jwrite k rep) := by rw [hpc]
  conv at a5 => rhs; simp [own, pstored, busy, afterLoad, inW, inW', inAdd, inJ]
  have b5 : inW' (.jadd k rep) = inW' (.jadd k rep) := rfl
  conv at b5 => rhs; simp [own, pstored, busy, afterLoad, inW, inW', inAdd, inJ]
  have a6 : inAdd (s.pc u) = inAdd (.jwrite k rep) := by rw [hpc]
  conv at a6 => rhs; simp [own, pstored, busy, afterLoad, inW, inW', inAdd, inJ]
  have b6 : inAdd (.jadd k rep) = inAdd (.jadd k rep) := rfl
  conv at b6 => rhs; simp [own, pstored, busy, afterLoad, inW, inW', inAdd, inJ]
  have a7 : inJ .grab (s.pc u) = inJ .grab (.jwrite k rep) := by rw [hpc]
  conv at a7 => rhs; simp [own, pstored, busy, afterLoad, inW, inW', inAdd, inJ]
  have b7 : inJ .grab (.jadd k rep) = inJ .grab (.jadd k rep) := rfl
  conv at b7 => rhs; simp [own, pstored, busy, afterLoad, inW, inW', inAdd, inJ]
  have a8 : inJ .cyc (s.pc u) = inJ .cyc (.jwrite k rep) := by rw [hpc]
  conv at a8 => rhs; simp [own, pstored, busy, afterLoad, inW, inW', inAdd, inJ]
  have b8 : inJ .cyc (.jadd k rep) = inJ .cyc (.jadd k rep) := rfl
  conv at b8 => rhs; simp [own, pstored, busy, afterLoad, inW, inW', inAdd, inJ]
  have mono : ∀ x, own (s.pc x) = true → own (s'.pc x) = true := by
    intro x hx; rw [hp]; split
    · rfl
    · exact hx
  have htm : ∀ x, own (s.pc x) = true → s'.tgt x = s.tgt x := fun _ _ => rfl
  have c1 := @own_of_inJ
  have c2 := @own_of_busy
  have c3 := @own_of_afterLoad
  have hsu : s.st u = .inProgress := R.busyI u (by grind)
  have hnp : ∀ y, s.cid y = u → y = u := by
    intro y hy
    by_contra hne
    obtain ⟨h1, h2⟩ := R.root y (by rw [hy]; exact fun h => hne h.symm)
    rw [hy] at h2
    rcases h2 with h2 | ⟨h2, h3, h4 | h4⟩
    · rw [hsu] at h2; cases h2
    · have := I.grabO y h4; rw [h2] at this; grind
    · have := I.target_waits h4; rw [h2] at this; grind
  have hrep : s.cid rep = rep ∧ rep ≠ u ∧ (k = .rep → s.st rep = .matched ∧ rep = s.cid (s.tgt u)) ∧ (k ≠ .rep → rep = s.tgt u) := by
    by_cases hk : k = .rep
    · subst hk
      obtain ⟨h1, h2, h3⟩ := R.repM u rep (by grind)
      exact ⟨h1, (by intro h; rw [h, hsu] at h2; cases h2), fun _ => ⟨h2, h3⟩, fun h => (h rfl).elim⟩
    · have h1 := I.repH u k rep hk (by grind)
      have h2 := R.held u (by cases k <;> grind)
      exact ⟨by rw [h1]; exact h2, by rw [h1]; exact I.tgt_ne u (by grind), fun h => (hk h).elim, fun _ => h1⟩
  obtain ⟨e1, e2, e3, e4⟩ := hrep
  have hheld : ∀ x, inJ .grab (s.pc x) = true ∨ inJ .cyc (s.pc x) = true → s.tgt x ≠ u := by
    rintro x (h | h) hxu
    · have := I.grabO x h; rw [hxu] at this; grind
    · have := I.target_waits h; rw [hxu] at this; grind
  clear_value s'
  clear hs'
  constructor
  all_goals try simp only [ht, hs, hr, hpa]
  · have := R.busyI; grind
  · have h1 := R.root; cases k <;> grind
  · have h1 := R.held; cases k <;> grind
  · -- repM
    intro x r h
    by_cases hx : x = u
    · subst hx
      rw [hp, if_pos rfl] at h
      have hk : k = .rep := by grind
      have hr' : r = rep := by grind
      obtain ⟨h1, h2⟩ := e3 hk
      rw [hr', hc, if_neg e2]
      refine ⟨e1, h1, ?_⟩
      rw [hc, if_neg (I.tgt_ne x (by grind))]; exact h2
    · rw [hp, if_neg hx] at h
      obtain ⟨h1, h2, h3⟩ := R.repM x r h
      have hru : r ≠ u := by intro hru; rw [hru, hsu] at h2; cases h2
      refine ⟨by rw [hc, if_neg hru]; exact h1, h2, ?_⟩
      rw [hc, if_neg]
      · exact h3
      · intro htu
        have := I.past x (by rcases h with h | h | h <;> rw [h] <;> rfl)
        rw [htu, hsu] at this
        rcases h with h | h | h <;> rw [h] at this <;> simp [inW, inJ] at this

set_option maxHeartbeats 1000000 in
theorem CInv.jaddStep_rep {s : ClSt} (I : s.CInv) {u : Nat} {rep : Nat} (hpc : s.pc u = .jadd .rep rep) :
    CInv { s with pc := Function.update s.pc u .fin1 } := by
  set s' : ClSt := { s with pc := Function.update s.pc u .fin1 } with hs'
  have hp : ∀ x, s'.pc x = if x = u then .fin1 else s.pc x := fun x => Function.update_apply ..
  have hs : s'.st = s.st := rfl
  have ht : s'.tgt = s.tgt := rfl
  have hc : s'.cid = s.cid := rfl
  have hr : s'.res = s.res := rfl
  have hpa : s'.partner = s.partner := rfl
  have a0 : own (s.pc u) = own (.jadd .rep rep) := by rw [hpc]
  conv at a0 => rhs; simp [own, pstored, busy, afterLoad, inW, inW', inAdd, inJ]
  have b0 : own .fin1 = own .fin1 := rfl
  conv at b0 => rhs; simp [own, pstored, busy, afterLoad, inW, inW', inAdd, inJ]
  have a1 : pstored (s.pc u) = pstored (.jadd .rep rep) := by rw [hpc]
  conv at a1 => rhs; simp [own, pstored, busy, afterLoad, inW, inW', inAdd, inJ]
  have b1 : pstored .fin1 = pstored .fin1 := rfl
  conv at b1 => rhs; simp [own, pstored, busy, afterLoad, inW, inW', inAdd, inJ]
  have a2 : busy (s.pc u) = busy (.jadd .rep rep) := by rw [hpc]
  conv at a2 => rhs; simp [own, pstored, busy, afterLoad, inW, inW', inAdd, inJ]
  have b2 : busy .fin1 = busy .fin1 := rfl
  conv at b2 => rhs; simp [own, pstored, busy, afterLoad, inW, inW', inAdd, inJ]
  have a3 : afterLoad (s.pc u) = afterLoad (.jadd .rep rep) := by rw [hpc]
  conv at a3 => rhs; simp [own, pstored, busy, afterLoad, inW, inW', inAdd, inJ]
  have b3 : afterLoad .fin1 = afterLoad .fin1 := rfl
  conv at b3 => rhs; simp [own, pstored, busy, afterLoad, inW, inW', inAdd, inJ]
  have a4 : inW (s.pc u) = inW (.jadd .rep rep) := by rw [hpc]
  conv at a4 => rhs; simp [own, pstored, busy, afterLoad, inW, inW', inAdd, inJ]
  have b4 : inW .fin1 = inW .fin1 := rfl
  conv at b4 => rhs; simp [own, pstored, busy, afterLoad, inW, inW', inAdd, inJ]
  have a5 : inW' (s.pc u) = inW' (.jadd .rep rep) := by rw [hpc]
  conv at a5 => rhs; simp [own, pstored, busy, afterLoad, inW, inW', inAdd, inJ]
  have b5 : inW' .fin1 = inW' .fin1 := rfl
  conv at b5 => rhs; simp [own, pstored, busy, afterLoad, inW, inW', inAdd, inJ]
  have a6 : inAdd (s.pc u) = inAdd (.jadd .rep rep) := by rw [hpc]
  conv at a6 => rhs; simp [own, pstored, busy, afterLoad, inW, inW', inAdd, inJ]
  have b6 : inAdd .fin1 = inAdd .fin1 := rfl
  conv at b6 => rhs; simp [own, pstored, busy, afterLoad, inW, inW', inAdd, inJ]
  have a7 : inJ .grab (s.pc u) = inJ .grab (.jadd .rep rep) := by rw [hpc]
  conv at a7 => rhs; simp [own, pstored, busy, afterLoad, inW, inW', inAdd, inJ]
  have b7 : inJ .grab .fin1 = inJ .grab .fin1 := rfl
  conv at b7 => rhs; simp [own, pstored, busy, afterLoad, inW, inW', inAdd, inJ]
  have a8 : inJ .cyc (s.pc u) = inJ .cyc (.jadd .rep rep) := by rw [hpc]
  conv at a8 => rhs; simp [own, pstored, busy, afterLoad, inW, inW', inAdd, inJ]
  have b8 : inJ .cyc .fin1 = inJ .cyc .fin1 := rfl
  conv at b8 => rhs; simp [own, pstored, busy, afterLoad, inW, inW', inAdd, inJ]
  have mono : ∀ x, own (s.pc x) = true → own (s'.pc x) = true := by
    intro x hx; rw [hp]; split
    · rfl
    · exact hx
  have htm : ∀ x, own (s.pc x) = true → s'.tgt x = s.tgt x := fun _ _ => rfl
  have c1 := @own_of_inJ
  have c2 := @own_of_busy
  have c3 := @own_of_afterLoad
  have d1 := I.past u (by grind)
  clear_value s'
  clear hs'
  constructor
  all_goals try simp only [ht, hs, hc, hr, hpa]
  · have := I.tgt_ne; have := I.tgt_ne'; grind
  · have := I.tgt_ne'; grind
  · have := I.ownU; grind
  · have := I.doneM; grind
  · have := I.part; grind
  · have := I.past; grind
  · have := I.ldU; grind
  · have := I.grabI; grind
  · have := I.grabO; have := I.grabI; grind
  · have := I.grabX; grind
  · have := I.byRes; grind
  · intro z hz; refine CycMin.mono (s := s) ?_ htm mono; have := I.resC; grind
  · have := I.resM; grind
  · have := I.resW; grind
  · have := I.cycC; intro z hz; refine CycMin.mono (s := s) ?_ htm mono; grind
  · have := I.cycI; grind
  · have := I.walkI; intro x c m h; refine WalkInv.mono (s := s) ?_ htm mono; grind
  · have := I.chkI; intro x c m h; refine WalkInv.mono (s := s) ?_ htm mono; grind
  · have := I.noown; grind
  · have := I.repH; grind
  · have := I.jst; grind
  · have := I.wcid; have h2 := I.noown; grind

set_option maxHeartbeats 1000000 in
theorem RInv.jaddStep_rep {s : ClSt} (R : s.RInv) (I : s.CInv) {u : Nat} {rep : Nat} (hpc : s.pc u = .jadd .rep rep) :
    RInv { s with pc := Function.update s.pc u .fin1 } := by
  set s' : ClSt := { s with pc := Function.update s.pc u .fin1 } with hs'
  have hp : ∀ x, s'.pc x = if x = u then .fin1 else s.pc x := fun x => Function.update_apply ..
  have hs : s'.st = s.st := rfl
  have ht : s'.tgt = s.tgt := rfl
  have hc : s'.cid = s.cid := rfl
  have hr : s'.res = s.res := rfl
  have hpa : s'.partner = s.partner := rfl
  have a0 : own (s.pc u) = own (.jadd .rep rep) := by rw [hpc]
  conv at a0 => rhs; simp [own, pstored, busy, afterLoad, inW, inW', inAdd, inJ]
  have b0 : own .fin1 = own .fin1 := rfl
  conv at b0 => rhs; simp [own, pstored, busy, afterLoad, inW, inW', inAdd, inJ]
  have a1 : pstored (s.pc u) = pstored (.jadd .rep rep) := by rw [hpc]
  conv at a1 => rhs; simp [own, pstored, busy, afterLoad, inW, inW', inAdd, inJ]
  have b1 : pstored .fin1 = pstored .fin1 := rfl
  conv at b1 => rhs; simp [own, pstored, busy, afterLoad, inW, inW', inAdd, inJ]
  have a2 : busy (s.pc u) = busy (.jadd .rep rep) := by rw [hpc]
  conv at a2 => rhs; simp [own, pstored, busy, afterLoad, inW, inW', inAdd, inJ]
  have b2 : busy .fin1 = busy .fin1 := rfl
  conv at b2 => rhs; simp [own, pstored, busy, afterLoad, inW, inW', inAdd, inJ]
  have a3 : afterLoad (s.pc u) = afterLoad (.jadd .rep rep) := by rw [hpc]
  conv at a3 => rhs; simp [own, pstored, busy, afterLoad, inW, inW', inAdd, inJ]
  have b3 : afterLoad .fin1 = afterLoad .fin1 := rfl
  conv at b3 => rhs; simp [own, pstored, busy, afterLoad, inW, inW', inAdd, inJ]
  have a4 : inW (s.pc u) = inW (.jadd .rep rep) := by rw [hpc]
  conv at a4 => rhs; simp [own, pstored, busy, afterLoad, inW, inW', inAdd, inJ]
  have b4 : inW .fin1 = inW .fin1 := rfl
  conv at b4 => rhs; simp [own, pstored, busy, afterLoad, inW, inW', inAdd, inJ]
  have a5 : inW' (s.pc u) = inW' (.jadd .rep rep) := by rw [hpc]
  conv at a5 => rhs; simp [own, pstored, busy, afterLoad, inW, inW', inAdd, inJ]
  have b5 : inW' .fin1 = inW' .fin1 := rfl
  conv at b5 => rhs; simp [own, pstored, busy, afterLoad, inW, inW', inAdd, inJ]
  have a6 : inAdd (s.pc u) = inAdd (.jadd .rep rep) := by rw [hpc]
  conv at a6 => rhs; simp [own, pstored, busy, afterLoad, inW, inW', inAdd, inJ]
  have b6 : inAdd .fin1 = inAdd .fin1 := rfl
  conv at b6 => rhs; simp [own, pstored, busy, afterLoad, inW, inW', inAdd, inJ]
  have a7 : inJ .grab (s.pc u) = inJ .grab (.jadd .rep rep) := by rw [hpc]
  conv at a7 => rhs; simp [own, pstored, busy, afterLoad, inW, inW', inAdd, inJ]
  have b7 : inJ .grab .fin1 = inJ .grab .fin1 := rfl
  conv at b7 => rhs; simp [own, pstored, busy, afterLoad, inW, inW', inAdd, inJ]
  have a8 : inJ .cyc (s.pc u) = inJ .cyc (.jadd .rep rep) := by rw [hpc]
  conv at a8 => rhs; simp [own, pstored, busy, afterLoad, inW, inW', inAdd, inJ]
  have b8 : inJ .cyc .fin1 = inJ .cyc .fin1 := rfl
  conv at b8 => rhs; simp [own, pstored, busy, afterLoad, inW, inW', inAdd, inJ]
  have mono : ∀ x, own (s.pc x) = true → own (s'.pc x) = true := by
    intro x hx; rw [hp]; split
    · rfl
    · exact hx
  have htm : ∀ x, own (s.pc x) = true → s'.tgt x = s.tgt x := fun _ _ => rfl
  have c1 := @own_of_inJ
  have c2 := @own_of_busy
  have c3 := @own_of_afterLoad
  have d1 := I.past u (by grind)
  clear_value s'
  clear hs'
  constructor
  all_goals try simp only [ht, hs, hc, hr, hpa]
  · have := R.busyI; grind
  · have := R.root; have := I.noown; grind
  · have := R.held; grind
  · have := R.repM; grind

set_option maxHeartbeats 1000000 in
theorem CInv.jaddStep_grab {s : ClSt} (I : s.CInv) {u : Nat} {rep : Nat} (hpc : s.pc u = .jadd .grab rep) :
    CInv { s with pc := Function.update s.pc u (.jstore .grab) } := by
  set s' : ClSt := { s with pc := Function.update s.pc u (.jstore .grab) } with hs'
  have hp : ∀ x, s'.pc x = if x = u then (.jstore .grab) else s.pc x := fun x => Function.update_apply ..
  have hs : s'.st = s.st := rfl
  have ht : s'.tgt = s.tgt := rfl
  have hc : s'.cid = s.cid := rfl
  have hr : s'.res = s.res := rfl
  have hpa : s'.partner = s.partner := rfl
  have a0 : own (s.pc u) = own (.jadd .grab rep) := by rw [hpc]
  conv at a0 => rhs; simp [own, pstored, busy, afterLoad, inW, inW', inAdd, inJ]
  have b0 : own (.jstore .grab) = own (.jstore .grab) := rfl
  conv at b0 => rhs; simp [own, pstored, busy, afterLoad, inW, inW', inAdd, inJ]
  have a1 : pstored (s.pc u) = pstored (.jadd .grab rep) := by rw [hpc]
  conv at a1 => rhs; simp [own, pstored, busy, afterLoad, inW, inW', inAdd, inJ]
  have b1 : pstored (.jstore .grab) = pstored (.jstore .grab) := rfl
  conv at b1 => rhs; simp [own, pstored, busy, afterLoad, inW, inW', inAdd, inJ]
  have a2 : busy (s.pc u) = busy (.jadd .grab rep) := by rw [hpc]
  conv at a2 => rhs; simp [own, pstored, busy, afterLoad, inW, inW', inAdd, inJ]
  have b2 : busy (.jstore .grab) = busy (.jstore .grab) := rfl
  conv at b2 => rhs; simp [own, pstored, busy, afterLoad, inW, inW', inAdd, inJ]
  have a3 : afterLoad (s.pc u) = afterLoad (.jadd .grab rep) := by rw [hpc]
  conv at a3 => rhs; simp [own, pstored, busy, afterLoad, inW, inW', inAdd, inJ]
  have b3 : afterLoad (.jstore .grab) = afterLoad (.jstore .grab) := rfl
  conv at b3 => rhs; simp [own, pstored, busy, afterLoad, inW, inW', inAdd, inJ]
  have a4 : inW (s.pc u) = inW (.jadd .grab rep) := by rw [hpc]
  conv at a4 => rhs; simp [own, pstored, busy, afterLoad, inW, inW', inAdd, inJ]
  have b4 : inW (.jstore .grab) = inW (.jstore .grab) := rfl
  conv at b4 => rhs; simp [own, pstored, busy, afterLoad, inW, inW', inAdd, inJ]
  have a5 : inW' (s.pc u) = inW' (.jadd .grab rep) := by rw [hpc]
  conv at a5 => rhs; simp [own, pstored, busy, afterLoad, inW, inW', inAdd, inJ]
  have b5 : inW' (.jstore .grab) = inW' (.jstore .grab) := rfl
  conv at b5 => rhs; simp [own, pstored, busy, afterLoad, inW, inW', inAdd, inJ]
  have a6 : inAdd (s.pc u) = inAdd (.jadd .grab rep) := by rw [hpc]
  conv at a6 => rhs; simp [own, pstored, busy, afterLoad, inW, inW', inAdd, inJ]
  have b6 : inAdd (.jstore .grab) = inAdd (.jstore .grab) := rfl
  conv at b6 => rhs; simp [own, pstored, busy, afterLoad, inW, inW', inAdd, inJ]
  have a7 : inJ .grab (s.pc u) = inJ .grab (.jadd .grab rep) := by rw [hpc]
  conv at a7 => rhs; simp [own, pstored, busy, afterLoad, inW, inW', inAdd, inJ]
  have b7 : inJ .grab (.jstore .grab) = inJ .grab (.jstore .grab) := rfl
  conv at b7 => rhs; simp [own, pstored, busy, afterLoad, inW, inW', inAdd, inJ]
  have a8 : inJ .cyc (s.pc u) = inJ .cyc (.jadd .grab rep) := by rw [hpc]
  conv at a8 => rhs; simp [own, pstored, busy, afterLoad, inW, inW', inAdd, inJ]
  have b8 : inJ .cyc (.jstore .grab) = inJ .cyc (.jstore .grab) := rfl
  conv at b8 => rhs; simp [own, pstored, busy, afterLoad, inW, inW', inAdd, inJ]
  have mono : ∀ x, own (s.pc x) = true → own (s'.pc x) = true := by
    intro x hx; rw [hp]; split
    · rfl
    · exact hx
  have htm : ∀ x, own (s.pc x) = true → s'.tgt x = s.tgt x := fun _ _ => rfl
  have c1 := @own_of_inJ
  have c2 := @own_of_busy
  have c3 := @own_of_afterLoad
  have d1 := I.past u (by grind)
  clear_value s'
  clear hs'
  constructor
  all_goals try simp only [ht, hs, hc, hr, hpa]
  · have := I.tgt_ne; have := I.tgt_ne'; grind
  · have := I.tgt_ne'; grind
  · have := I.ownU; grind
  · have := I.doneM; grind
  · have := I.part; grind
  · have := I.past; grind
  · have := I.ldU; grind
  · have := I.grabI; grind
  · have := I.grabO; have := I.grabI; grind
  · have := I.grabX; grind
  · have := I.byRes; grind
  · intro z hz; refine CycMin.mono (s := s) ?_ htm mono; have := I.resC; grind
  · have := I.resM; grind
  · have := I.resW; grind
  · have := I.cycC; intro z hz; refine CycMin.mono (s := s) ?_ htm mono; grind
  · have := I.cycI; grind
  · have := I.walkI; intro x c m h; refine WalkInv.mono (s := s) ?_ htm mono; grind
  · have := I.chkI; intro x c m h; refine WalkInv.mono (s := s) ?_ htm mono; grind
  · have := I.noown; grind
  · have := I.repH; grind
  · have := I.jst; grind
  · have := I.wcid; have h2 := I.noown; grind

set_option maxHeartbeats 1000000 in
theorem RInv.jaddStep_grab {s : ClSt} (R : s.RInv) (I : s.CInv) {u : Nat} {rep : Nat} (hpc : s.pc u = .jadd .grab rep) :
    RInv { s with pc := Function.update s.pc u (.jstore .grab) } := by
  set s' : ClSt := { s with pc := Function.update s.pc u (.jstore .grab) } with hs'
  have hp : ∀ x, s'.pc x = if x = u then (.jstore .grab) else s.pc x := fun x => Function.update_apply ..
  have hs : s'.st = s.st := rfl
  have ht : s'.tgt = s.tgt := rfl
  have hc : s'.cid = s.cid := rfl
  have hr : s'.res = s.res := rfl
  have hpa : s'.partner = s.partner := rfl
  have a0 : own (s.pc u) = own (.jadd .grab rep) := by rw [hpc]
  conv at a0 => rhs; simp [own, pstored, busy, afterLoad, inW, inW', inAdd, inJ]
  have b0 : own (.jstore .grab) = own (.jstore .grab) := rfl
  conv at b0 => rhs; simp [own, pstored, busy, afterLoad, inW, inW', inAdd, inJ]
  have a1 : pstored (s.pc u) = pstored (.jadd .grab rep) := by rw [hpc]
  conv at a1 => rhs; simp [own, pstored, busy, afterLoad, inW, inW', inAdd, inJ]
  have b1 : pstored (.jstore .grab) = pstored (.jstore .grab) := rfl
  conv at b1 => rhs; simp [own, pstored, busy, afterLoad, inW, inW', inAdd, inJ]
  have a2 : busy (s.pc u) = busy (.jadd .grab rep) := by rw [hpc]
  conv at a2 => rhs; simp [own, pstored, busy, afterLoad, inW, inW', inAdd, inJ]
  have b2 : busy (.jstore .grab) = busy (.jstore .grab) := rfl
  conv at b2 => rhs; simp [own, pstored, busy, afterLoad, inW, inW', inAdd, inJ]
  have a3 : afterLoad (s.pc u) = afterLoad (.jadd .grab rep) := by rw [hpc]
  conv at a3 => rhs; simp [own, pstored, busy, afterLoad, inW, inW', inAdd, inJ]
  have b3 : afterLoad (.jstore .grab) = afterLoad (.jstore .grab) := rfl
  conv at b3 => rhs; simp [own, pstored, busy, afterLoad, inW, inW', inAdd, inJ]
  have a4 : inW (s.pc u) = inW (.jadd .grab rep) := by rw [hpc]
  conv at a4 => rhs; simp [own, pstored, busy, afterLoad, inW, inW', inAdd, inJ]
  have b4 : inW (.jstore .grab) = inW (.jstore .grab) := rfl
  conv at b4 => rhs; simp [own, pstored, busy, afterLoad, inW, inW', inAdd, inJ]
  have a5 : inW' (s.pc u) = inW' (.jadd .grab rep) := by rw [hpc]
  conv at a5 => rhs; simp [own, pstored, busy, afterLoad, inW, inW', inAdd, inJ]
  have b5 : inW' (.jstore .grab) = inW' (.jstore .grab) := rfl
  conv at b5 => rhs; simp [own, pstored, busy, afterLoad, inW, inW', inAdd, inJ]
  have a6 : inAdd (s.pc u) = inAdd (.jadd .grab rep) := by rw [hpc]
  conv at a6 => rhs; simp [own, pstored, busy, afterLoad, inW, inW', inAdd, inJ]
  have b6 : inAdd (.jstore .grab) = inAdd (.jstore .grab) := rfl
  conv at b6 => rhs; simp [own, pstored, busy, afterLoad, inW, inW', inAdd, inJ]
  have a7 : inJ .grab (s.pc u) = inJ .grab (.jadd .grab rep) := by rw [hpc]
  conv at a7 => rhs; simp [own, pstored, busy, afterLoad, inW, inW', inAdd, inJ]
  have b7 : inJ .grab (.jstore .grab) = inJ .grab (.jstore .grab) := rfl
  conv at b7 => rhs; simp [own, pstored, busy, afterLoad, inW, inW', inAdd, inJ]
  have a8 : inJ .cyc (s.pc u) = inJ .cyc (.jadd .grab rep) := by rw [hpc]
  conv at a8 => rhs; simp [own, pstored, busy, afterLoad, inW, inW', inAdd, inJ]
  have b8 : inJ .cyc (.jstore .grab) = inJ .cyc (.jstore .grab) := rfl
  conv at b8 => rhs; simp [own, pstored, busy, afterLoad, inW, inW', inAdd, inJ]
  have mono : ∀ x, own (s.pc x) = true → own (s'.pc x) = true := by
    intro x hx; rw [hp]; split
    · rfl
    · exact hx
  have htm : ∀ x, own (s.pc x) = true → s'.tgt x = s.tgt x := fun _ _ => rfl
  have c1 := @own_of_inJ
  have c2 := @own_of_busy
  have c3 := @own_of_afterLoad
  have d1 := I.past u (by grind)
  clear_value s'
  clear hs'
  constructor
  all_goals try simp only [ht, hs, hc, hr, hpa]
  · have := R.busyI; grind
  · have := R.root; have := I.noown; grind
  · have := R.held; grind
  · have := R.repM; grind

set_option maxHeartbeats 1000000 in
theorem CInv.jaddStep_cyc {s : ClSt} (I : s.CInv) {u : Nat} {rep : Nat} (hpc : s.pc u = .jadd .cyc rep) :
    CInv { s with pc := Function.update s.pc u (.jstore .cyc) } := by
  set s' : ClSt := { s with pc := Function.update s.pc u (.jstore .cyc) } with hs'
  have hp : ∀ x, s'.pc x = if x = u then (.jstore .cyc) else s.pc x := fun x => Function.update_apply ..
  have hs : s'.st = s.st := rfl
  have ht : s'.tgt = s.tgt := rfl
  have hc : s'.cid = s.cid := rfl
  have hr : s'.res = s.res := rfl
  have hpa : s'.partner = s.partner := rfl
  have a0 : own (s.pc u) = own (.jadd .cyc rep) := by rw [hpc]
  conv at a0 => rhs; simp [own, pstored, busy, afterLoad, inW, inW', inAdd, inJ]
  have b0 : own (.jstore .cyc) = own (.jstore .cyc) := rfl
  conv at b0 => rhs; simp [own, pstored, busy, afterLoad, inW, inW', inAdd, inJ]
  have a1 : pstored (s.pc u) = pstored (.jadd .cyc rep) := by rw [hpc]
  conv at a1 => rhs; simp [own, pstored, busy, afterLoad, inW, inW', inAdd, inJ]
  have b1 : pstored (.jstore .cyc) = pstored (.jstore .cyc) := rfl
  conv at b1 => rhs; simp [own, pstored, busy, afterLoad, inW, inW', inAdd, inJ]
  have a2 : busy (s.pc u) = busy (.jadd .cyc rep) := by rw [hpc]
  conv at a2 => rhs; simp [own, pstored, busy, afterLoad, inW, inW', inAdd, inJ]
  have b2 : busy (.jstore .cyc) = busy (.jstore .cyc) := rfl
  conv at b2 => rhs; simp [own, pstored, busy, afterLoad, inW, inW', inAdd, inJ]
  have a3 : afterLoad (s.pc u) = afterLoad (.jadd .cyc rep) := by rw [hpc]
  conv at a3 => rhs; simp [own, pstored, busy, afterLoad, inW, inW', inAdd, inJ]
  have b3 : afterLoad (.jstore .cyc) = afterLoad (.jstore .cyc) := rfl
  conv at b3 => rhs; simp [own, pstored, busy, afterLoad, inW, inW', inAdd, inJ]
  have a4 : inW (s.pc u) = inW (.jadd .cyc rep) := by rw [hpc]
  conv at a4 => rhs; simp [own, pstored, busy, afterLoad, inW, inW', inAdd, inJ]
  have b4 : inW (.jstore .cyc) = inW (.jstore .cyc) := rfl
  conv at b4 => rhs; simp [own, pstored, busy, afterLoad, inW, inW', inAdd, inJ]
  have a5 : inW' (s.pc u) = inW' (.jadd .cyc rep) := by rw [hpc]
  conv at a5 => rhs; simp [own, pstored, busy, afterLoad, inW, inW', inAdd, inJ]
  have b5 : inW' (.jstore .cyc) = inW' (.jstore .cyc) := rfl
  conv at b5 => rhs; simp [own, pstored, busy, afterLoad, inW, inW', inAdd, inJ]
  have a6 : inAdd (s.pc u) = inAdd (.jadd .cyc rep) := by rw [hpc]
  conv at a6 => rhs; simp [own, pstored, busy, afterLoad, inW, inW', inAdd, inJ]
  have b6 : inAdd (.jstore .cyc) = inAdd (.jstore .cyc) := rfl
  conv at b6 => rhs; simp [own, pstored, busy, afterLoad, inW, inW', inAdd, inJ]
  have a7 : inJ .grab (s.pc u) = inJ .grab (.jadd .cyc rep) := by rw [hpc]
  conv at a7 => rhs; simp [own, pstored, busy, afterLoad, inW, inW', inAdd, inJ]
  have b7 : inJ .grab (.jstore .cyc) = inJ .grab (.jstore .cyc) := rfl
  conv at b7 => rhs; simp [own, pstored, busy, afterLoad, inW, inW', inAdd, inJ]
  have a8 : inJ .cyc (s.pc u) = inJ .cyc (.jadd .cyc rep) := by rw [hpc]
  conv at a8 => rhs; simp [own, pstored, busy, afterLoad, inW, inW', inAdd, inJ]
  have b8 : inJ .cyc (.jstore .cyc) = inJ .cyc (.jstore .cyc) := rfl
  conv at b8 => rhs; simp [own, pstored, busy, afterLoad, inW, inW', inAdd, inJ]
  have mono : ∀ x, own (s.pc x) = true → own (s'.pc x) = true := by
    intro x hx; rw [hp]; split
    · rfl
    · exact hx
  have htm : ∀ x, own (s.pc x) = true → s'.tgt x = s.tgt x := fun _ _ => rfl
  have c1 := @own_of_inJ
  have c2 := @own_of_busy
  have c3 := @own_of_afterLoad
  have d1 := I.past u (by grind)
  clear_value s'
  clear hs'
  constructor
  all_goals try simp only [ht, hs, hc, hr, hpa]
  · have := I.tgt_ne; have := I.tgt_ne'; grind
  · have := I.tgt_ne'; grind
  · have := I.ownU; grind
  · have := I.doneM; grind
  · have := I.part; grind
  · have := I.past; grind
  · have := I.ldU; grind
  · have := I.grabI; grind
  · have := I.grabO; have := I.grabI; grind
  · have := I.grabX; grind
  · have := I.byRes; grind
  · intro z hz; refine CycMin.mono (s := s) ?_ htm mono; have := I.resC; grind
  · have := I.resM; grind
  · have := I.resW; grind
  · have := I.cycC; intro z hz; refine CycMin.mono (s := s) ?_ htm mono; grind
  · have := I.cycI; grind
  · have := I.walkI; intro x c m h; refine WalkInv.mono (s := s) ?_ htm mono; grind
  · have := I.chkI; intro x c m h; refine WalkInv.mono (s := s) ?_ htm mono; grind
  · have := I.noown; grind
  · have := I.repH; grind
  · have := I.jst; grind
  · have := I.wcid; have h2 := I.noown; grind

set_option maxHeartbeats 1000000 in
theorem RInv.jaddStep_cyc {s : ClSt} (R : s.RInv) (I : s.CInv) {u : Nat} {rep : Nat} (hpc : s.pc u = .jadd .cyc rep) :
    RInv { s with pc := Function.update s.pc u (.jstore .cyc) } := by
  set s' : ClSt := { s with pc := Function.update s.pc u (.jstore .cyc) } with hs'
  have hp : ∀ x, s'.pc x = if x = u then (.jstore .cyc) else s.pc x := fun x => Function.update_apply ..
  have hs : s'.st = s.st := rfl
  have ht : s'.tgt = s.tgt := rfl
  have hc : s'.cid = s.cid := rfl
  have hr : s'.res = s.res := rfl
  have hpa : s'.partner = s.partner := rfl
  have a0 : own (s.pc u) = own (.jadd .cyc rep) := by rw [hpc]
  conv at a0 => rhs; simp [own, pstored, busy, afterLoad, inW, inW', inAdd, inJ]
  have b0 : own (.jstore .cyc) = own (.jstore .cyc) := rfl
  conv at b0 => rhs; simp [own, pstored, busy, afterLoad, inW, inW', inAdd, inJ]
  have a1 : pstored (s.pc u) = pstored (.jadd .cyc rep) := by rw [hpc]
  conv at a1 => rhs; simp [own, pstored, busy, afterLoad, inW, inW', inAdd, inJ]
  have b1 : pstored (.jstore .cyc) = pstored (.jstore .cyc) := rfl
  conv at b1 => rhs; simp [own, pstored, busy, afterLoad, inW, inW', inAdd, inJ]
  have a2 : busy (s.pc u) = busy (.jadd .cyc rep) := by rw [hpc]
  conv at a2 => rhs; simp [own, pstored, busy, afterLoad, inW, inW', inAdd, inJ]
  have b2 : busy (.jstore .cyc) = busy (.jstore .cyc) := rfl
  conv at b2 => rhs; simp [own, pstored, busy, afterLoad, inW, inW', inAdd, inJ]
  have a3 : afterLoad (s.pc u) = afterLoad (.jadd .cyc rep) := by rw [hpc]
  conv at a3 => rhs; simp [own, pstored, busy, afterLoad, inW, inW', inAdd, inJ]
  have b3 : afterLoad (.jstore .cyc) = afterLoad (.jstore .cyc) := rfl
  conv at b3 => rhs; simp [own, pstored, busy, afterLoad, inW, inW', inAdd, inJ]
  have a4 : inW (s.pc u) = inW (.jadd .cyc rep) := by rw [hpc]
  conv at a4 => rhs; simp [own, pstored, busy, afterLoad, inW, inW', inAdd, inJ]
  have b4 : inW (.jstore .cyc) = inW (.jstore .cyc) := rfl
  conv at b4 => rhs; simp [own, pstored, busy, afterLoad, inW, inW', inAdd, inJ]
  have a5 : inW' (s.pc u) = inW' (.jadd .cyc rep) := by rw [hpc]
  conv at a5 => rhs; simp [own, pstored, busy, afterLoad, inW, inW', inAdd, inJ]
  have b5 : inW' (.jstore .cyc) = inW' (.jstore .cyc) := rfl
  conv at b5 => rhs; simp [own, pstored, busy, afterLoad, inW, inW', inAdd, inJ]
  have a6 : inAdd (s.pc u) = inAdd (.jadd .cyc rep) := by rw [hpc]
  conv at a6 => rhs; simp [own, pstored, busy, afterLoad, inW, inW', inAdd, inJ]
  have b6 : inAdd (.jstore .cyc) = inAdd (.jstore .cyc) := rfl
  conv at b6 => rhs; simp [own, pstored, busy, afterLoad, inW, inW', inAdd, inJ]
  have a7 : inJ .grab (s.pc u) = inJ .grab (.jadd .cyc rep) := by rw [hpc]
  conv at a7 => rhs; simp [own, pstored, busy, afterLoad, inW, inW', inAdd, inJ]
  have b7 : inJ .grab (.jstore .cyc) = inJ .grab (.jstore .cyc) := rfl
  conv at b7 => rhs; simp [own, pstored, busy, afterLoad, inW, inW', inAdd, inJ]
  have a8 : inJ .cyc (s.pc u) = inJ .cyc (.jadd .cyc rep) := by rw [hpc]
  conv at a8 => rhs; simp [own, pstored, busy, afterLoad, inW, inW', inAdd, inJ]
  have b8 : inJ .cyc (.jstore .cyc) = inJ .cyc (.jstore .cyc) := rfl
  conv at b8 => rhs; simp [own, pstored, busy, afterLoad, inW, inW', inAdd, inJ]
  have mono : ∀ x, own (s.pc x) = true → own (s'.pc x) = true := by
    intro x hx; rw [hp]; split
    · rfl
    · exact hx
  have htm : ∀ x, own (s.pc x) = true → s'.tgt x = s.tgt x := fun _ _ => rfl
  have c1 := @own_of_inJ
  have c2 := @own_of_busy
  have c3 := @own_of_afterLoad
  have d1 := I.past u (by grind)
  clear_value s'
  clear hs'
  constructor
  all_goals try simp only [ht, hs, hc, hr, hpa]
  · have := R.busyI; grind
  · have := R.root; have := I.noown; grind
  · have := R.held; grind
  · have := R.repM; grind

set_option maxHeartbeats 1000000 in
theorem CInv.jstoreGrab {s : ClSt} (I : s.CInv) {u : Nat} (hpc : s.pc u = .jstore .grab) :
    CInv { s with st := Function.update s.st (s.tgt u) .matched, pc := Function.update s.pc u .fin1 } := by
  set s' : ClSt := { s with st := Function.update s.st (s.tgt u) .matched, pc := Function.update s.pc u .fin1 } with hs'
  have hp : ∀ x, s'.pc x = if x = u then .fin1 else s.pc x := fun x => Function.update_apply ..
  have hs : ∀ x, s'.st x = if x = (s.tgt u) then .matched else s.st x := fun x => Function.update_apply ..
  have ht : s'.tgt = s.tgt := rfl
  have hc : s'.cid = s.cid := rfl
  have hr : s'.res = s.res := rfl
  have hpa : s'.partner = s.partner := rfl
  have a0 : own (s.pc u) = own (.jstore .grab) := by rw [hpc]
  conv at a0 => rhs; simp [own, pstored, busy, afterLoad, inW, inW', inAdd, inJ]
  have b0 : own .fin1 = own .fin1 := rfl
  conv at b0 => rhs; simp [own, pstored, busy, afterLoad, inW, inW', inAdd, inJ]
  have a1 : pstored (s.pc u) = pstored (.jstore .grab) := by rw [hpc]
  conv at a1 => rhs; simp [own, pstored, busy, afterLoad, inW, inW', inAdd, inJ]
  have b1 : pstored .fin1 = pstored .fin1 := rfl
  conv at b1 => rhs; simp [own, pstored, busy, afterLoad, inW, inW', inAdd, inJ]
  have a2 : busy (s.pc u) = busy (.jstore .grab) := by rw [hpc]
  conv at a2 => rhs; simp [own, pstored, busy, afterLoad, inW, inW', inAdd, inJ]
  have b2 : busy .fin1 = busy .fin1 := rfl
  conv at b2 => rhs; simp [own, pstored, busy, afterLoad, inW, inW', inAdd, inJ]
  have a3 : afterLoad (s.pc u) = afterLoad (.jstore .grab) := by rw [hpc]
  conv at a3 => rhs; simp [own, pstored, busy, afterLoad, inW, inW', inAdd, inJ]
  have b3 : afterLoad .fin1 = afterLoad .fin1 := rfl
  conv at b3 => rhs; simp [own, pstored, busy, afterLoad, inW, inW', inAdd, inJ]
  have a4 : inW (s.pc u) = inW (.jstore .grab) := by rw [hpc]
  conv at a4 => rhs; simp [own, pstored, busy, afterLoad, inW, inW', inAdd, inJ]
  have b4 : inW .fin1 = inW .fin1 := rfl
  conv at b4 => rhs; simp [own, pstored, busy, afterLoad, inW, inW', inAdd, inJ]
  have a5 : inW' (s.pc u) = inW' (.jstore .grab) := by rw [hpc]
  conv at a5 => rhs; simp [own, pstored, busy, afterLoad, inW, inW', inAdd, inJ]
  have b5 : inW' .fin1 = inW' .fin1 := rfl
  conv at b5 => rhs; simp [own, pstored, busy, afterLoad, inW, inW', inAdd, inJ]
  have a6 : inAdd (s.pc u) = inAdd (.jstore .grab) := by rw [hpc]
  conv at a6 => rhs; simp [own, pstored, busy, afterLoad, inW, inW', inAdd, inJ]
  have b6 : inAdd .fin1 = inAdd .fin1 := rfl
  conv at b6 => rhs; simp [own, pstored, busy, afterLoad, inW, inW', inAdd, inJ]
  have a7 : inJ .grab (s.pc u) = inJ .grab (.jstore .grab) := by rw [hpc]
  conv at a7 => rhs; simp [own, pstored, busy, afterLoad, inW, inW', inAdd, inJ]
  have b7 : inJ .grab .fin1 = inJ .grab .fin1 := rfl
  conv at b7 => rhs; simp [own, pstored, busy, afterLoad, inW, inW', inAdd, inJ]
  have a8 : inJ .cyc (s.pc u) = inJ .cyc (.jstore .grab) := by rw [hpc]
  conv at a8 => rhs; simp [own, pstored, busy, afterLoad, inW, inW', inAdd, inJ]
  have b8 : inJ .cyc .fin1 = inJ .cyc .fin1 := rfl
  conv at b8 => rhs; simp [own, pstored, busy, afterLoad, inW, inW', inAdd, inJ]
  have mono : ∀ x, own (s.pc x) = true → own (s'.pc x) = true := by
    intro x hx; rw [hp]; split
    · rfl
    · exact hx
  have htm : ∀ x, own (s.pc x) = true → s'.tgt x = s.tgt x := fun _ _ => rfl
  have c1 := @own_of_inJ
  have c2 := @own_of_busy
  have c3 := @own_of_afterLoad
  have hsv := I.grabI u (by grind)
  have hov := I.grabO u (by grind)
  have hvu : s.tgt u ≠ u := I.tgt_ne u (by grind)
  clear_value s'
  clear hs'
  constructor
  all_goals try simp only [ht, hc, hr, hpa]
  · have := I.tgt_ne; have := I.tgt_ne'; grind
  · have := I.tgt_ne'; grind
  · have := I.ownU; grind
  · have := I.doneM; grind
  · have := I.part; grind
  · have := I.past; grind
  · have := I.ldU; grind
  · have := I.grabI; have := I.grabX; grind
  · have := I.grabO; have := I.grabI; grind
  · have := I.grabX; grind
  · have := I.byRes; grind
  · intro z hz; refine CycMin.mono (s := s) ?_ htm mono; have := I.resC; grind
  · have := I.resM; grind
  · have := I.resW; grind
  · have := I.cycC; intro z hz; refine CycMin.mono (s := s) ?_ htm mono; grind
  · -- cycI
    intro z hz i
    have hz' : inJ .cyc (s.pc z) = true := by grind
    have h1 := I.cycI z hz' i
    have h2 := (I.cycC z hz').allOwn i
    grind
  · have := I.walkI; intro x c m h; refine WalkInv.mono (s := s) ?_ htm mono; grind
  · have := I.chkI; intro x c m h; refine WalkInv.mono (s := s) ?_ htm mono; grind
  · have := I.noown; grind
  · have := I.repH; grind
  · have := I.jst; grind
  · have := I.wcid; have h2 := I.noown; grind

set_option maxHeartbeats 1000000 in
theorem RInv.jstoreGrab {s : ClSt} (R : s.RInv) (I : s.CInv) {u : Nat} (hpc : s.pc u = .jstore .grab) :
    RInv { s with st := Function.update s.st (s.tgt u) .matched, pc := Function.update s.pc u .fin1 } := by
  set s' : ClSt := { s with st := Function.update s.st (s.tgt u) .matched, pc := Function.update s.pc u .fin1 } with hs'
  have hp : ∀ x, s'.pc x = if x = u then .fin1 else s.pc x := fun x => Function.update_apply ..
  have hs : ∀ x, s'.st x = if x = (s.tgt u) then .matched else s.st x := fun x => Function.update_apply ..
  have ht : s'.tgt = s.tgt := rfl
  have hc : s'.cid = s.cid := rfl
  have hr : s'.res = s.res := rfl
  have hpa : s'.partner = s.partner := rfl
  have a0 : own (s.pc u) = own (.jstore .grab) := by rw [hpc]
  conv at a0 => rhs; simp [own, pstored, busy, afterLoad, inW, inW', inAdd, inJ]
  have b0 : own .fin1 = own .fin1 := rfl
  conv at b0 => rhs; simp [own, pstored, busy, afterLoad, inW, inW', inAdd, inJ]
  have a1 : pstored (s.pc u) = pstored (.jstore .grab) := by rw [hpc]
  conv at a1 => rhs; simp [own, pstored, busy, afterLoad, inW, inW', inAdd, inJ]
  have b1 : pstored .fin1 = pstored .fin1 := rfl
  conv at b1 => rhs; simp [own, pstored, busy, afterLoad, inW, inW', inAdd, inJ]
  have a2 : busy (s.pc u) = busy (.jstore .grab) := by rw [hpc]
  conv at a2 => rhs; simp [own, pstored, busy, afterLoad, inW, inW', inAdd, inJ]
  have b2 : busy .fin1 = busy .fin1 := rfl
  conv at b2 => rhs; simp [own, pstored, busy, afterLoad, inW, inW', inAdd, inJ]
  have a3 : afterLoad (s.pc u) = afterLoad (.jstore .grab) := by rw [hpc]
  conv at a3 => rhs; simp [own, pstored, busy, afterLoad, inW, inW', inAdd, inJ]
  have b3 : afterLoad .fin1 = afterLoad .fin1 := rfl
  conv at b3 => rhs; simp [own, pstored, busy, afterLoad, inW, inW', inAdd, inJ]
  have a4 : inW (s.pc u) = inW (.jstore .grab) := by rw [hpc]
  conv at a4 => rhs; simp [own, pstored, busy, afterLoad, inW, inW', inAdd, inJ]
  have b4 : inW .fin1 = inW .fin1 := rfl
  conv at b4 => rhs; simp [own, pstored, busy, afterLoad, inW, inW', inAdd, inJ]
  have a5 : inW' (s.pc u) = inW' (.jstore .grab) := by rw [hpc]
  conv at a5 => rhs; simp [own, pstored, busy, afterLoad, inW, inW', inAdd, inJ]
  have b5 : inW' .fin1 = inW' .fin1 := rfl
  conv at b5 => rhs; simp [own, pstored, busy, afterLoad, inW, inW', inAdd, inJ]
  have a6 : inAdd (s.pc u) = inAdd (.jstore .grab) := by rw [hpc]
  conv at a6 => rhs; simp [own, pstored, busy, afterLoad, inW, inW', inAdd, inJ]
  have b6 : inAdd .fin1 = inAdd .fin1 := rfl
  conv at b6 => rhs; simp [own, pstored, busy, afterLoad, inW, inW', inAdd, inJ]
  have a7 : inJ .grab (s.pc u) = inJ .grab (.jstore .grab) := by rw [hpc]
  conv at a7 => rhs; simp [own, pstored, busy, afterLoad, inW, inW', inAdd, inJ]
  have b7 : inJ .grab .fin1 = inJ .grab .fin1 := rfl
  conv at b7 => rhs; simp [own, pstored, busy, afterLoad, inW, inW', inAdd, inJ]
  have a8 : inJ .cyc (s.pc u) = inJ .cyc (.jstore .grab) := by rw [hpc]
  conv at a8 => rhs; simp [own, pstored, busy, afterLoad, inW, inW', inAdd, inJ]
  have b8 : inJ .cyc .fin1 = inJ .cyc .fin1 := rfl
  conv at b8 => rhs; simp [own, pstored, busy, afterLoad, inW, inW', inAdd, inJ]
  have mono : ∀ x, own (s.pc x) = true → own (s'.pc x) = true := by
    intro x hx; rw [hp]; split
    · rfl
    · exact hx
  have htm : ∀ x, own (s.pc x) = true → s'.tgt x = s.tgt x := fun _ _ => rfl
  have c1 := @own_of_inJ
  have c2 := @own_of_busy
  have c3 := @own_of_afterLoad
  have hsv := I.grabI u (by grind)
  have hov := I.grabO u (by grind)
  have hvu : s.tgt u ≠ u := I.tgt_ne u (by grind)
  have hcv := R.held u (by grind)
  clear_value s'
  clear hs'
  constructor
  all_goals try simp only [ht, hc, hr, hpa]
  · have := R.busyI; grind
  · have := R.root; have := I.noown; grind
  · have := R.held; grind
  · have := R.repM; grind

set_option maxHeartbeats 1000000 in
theorem CInv.jstoreCyc {s : ClSt} (I : s.CInv) {u : Nat} (hpc : s.pc u = .jstore .cyc) :
    CInv { s with st := Function.update s.st (s.tgt u) .matched, res := Function.update s.res u true, pc := Function.update s.pc u .loop } := by
  set s' : ClSt := { s with st := Function.update s.st (s.tgt u) .matched, res := Function.update s.res u true, pc := Function.update s.pc u .loop } with hs'
  have hp : ∀ x, s'.pc x = if x = u then .loop else s.pc x := fun x => Function.update_apply ..
  have hs : ∀ x, s'.st x = if x = (s.tgt u) then .matched else s.st x := fun x => Function.update_apply ..
  have ht : s'.tgt = s.tgt := rfl
  have hc : s'.cid = s.cid := rfl
  have hr : ∀ x, s'.res x = if x = u then true else s.res x := fun x => Function.update_apply ..
  have hpa : s'.partner = s.partner := rfl
  have a0 : own (s.pc u) = own (.jstore .cyc) := by rw [hpc]
  conv at a0 => rhs; simp [own, pstored, busy, afterLoad, inW, inW', inAdd, inJ]
  have b0 : own .loop = own .loop := rfl
  conv at b0 => rhs; simp [own, pstored, busy, afterLoad, inW, inW', inAdd, inJ]
  have a1 : pstored (s.pc u) = pstored (.jstore .cyc) := by rw [hpc]
  conv at a1 => rhs; simp [own, pstored, busy, afterLoad, inW, inW', inAdd, inJ]
  have b1 : pstored .loop = pstored .loop := rfl
  conv at b1 => rhs; simp [own, pstored, busy, afterLoad, inW, inW', inAdd, inJ]
  have a2 : busy (s.pc u) = busy (.jstore .cyc) := by rw [hpc]
  conv at a2 => rhs; simp [own, pstored, busy, afterLoad, inW, inW', inAdd, inJ]
  have b2 : busy .loop = busy .loop := rfl
  conv at b2 => rhs; simp [own, pstored, busy, afterLoad, inW, inW', inAdd, inJ]
  have a3 : afterLoad (s.pc u) = afterLoad (.jstore .cyc) := by rw [hpc]
  conv at a3 => rhs; simp [own, pstored, busy, afterLoad, inW, inW', inAdd, inJ]
  have b3 : afterLoad .loop = afterLoad .loop := rfl
  conv at b3 => rhs; simp [own, pstored, busy, afterLoad, inW, inW', inAdd, inJ]
  have a4 : inW (s.pc u) = inW (.jstore .cyc) := by rw [hpc]
  conv at a4 => rhs; simp [own, pstored, busy, afterLoad, inW, inW', inAdd, inJ]
  have b4 : inW .loop = inW .loop := rfl
  conv at b4 => rhs; simp [own, pstored, busy, afterLoad, inW, inW', inAdd, inJ]
  have a5 : inW' (s.pc u) = inW' (.jstore .cyc) := by rw [hpc]
  conv at a5 => rhs; simp [own, pstored, busy, afterLoad, inW, inW', inAdd, inJ]
  have b5 : inW' .loop = inW' .loop := rfl
  conv at b5 => rhs; simp [own, pstored, busy, afterLoad, inW, inW', inAdd, inJ]
  have a6 : inAdd (s.pc u) = inAdd (.jstore .cyc) := by rw [hpc]
  conv at a6 => rhs; simp [own, pstored, busy, afterLoad, inW, inW', inAdd, inJ]
  have b6 : inAdd .loop = inAdd .loop := rfl
  conv at b6 => rhs; simp [own, pstored, busy, afterLoad, inW, inW', inAdd, inJ]
  have a7 : inJ .grab (s.pc u) = inJ .grab (.jstore .cyc) := by rw [hpc]
  conv at a7 => rhs; simp [own, pstored, busy, afterLoad, inW, inW', inAdd, inJ]
  have b7 : inJ .grab .loop = inJ .grab .loop := rfl
  conv at b7 => rhs; simp [own, pstored, busy, afterLoad, inW, inW', inAdd, inJ]
  have a8 : inJ .cyc (s.pc u) = inJ .cyc (.jstore .cyc) := by rw [hpc]
  conv at a8 => rhs; simp [own, pstored, busy, afterLoad, inW, inW', inAdd, inJ]
  have b8 : inJ .cyc .loop = inJ .cyc .loop := rfl
  conv at b8 => rhs; simp [own, pstored, busy, afterLoad, inW, inW', inAdd, inJ]
  have mono : ∀ x, own (s.pc x) = true → own (s'.pc x) = true := by
    intro x hx; rw [hp]; split
    · rfl
    · exact hx
  have htm : ∀ x, own (s.pc x) = true → s'.tgt x = s.tgt x := fun _ _ => rfl
  have c1 := @own_of_inJ
  have c2 := @own_of_busy
  have c3 := @own_of_afterLoad
  have hsv := I.cycI u (by grind) 1
  have hW := I.target_waits (z := u) (by grind)
  have hvu : s.tgt u ≠ u := I.tgt_ne u (by grind)
  have c5 := @busy_not_inW
  have c6 := @busy_of_inJ
  have hcu : s.CycMin u := I.cycC u (by grind)
  clear_value s'
  clear hs'
  constructor
  all_goals try simp only [ht, hc, hpa]
  · have := I.tgt_ne; have := I.tgt_ne'; grind
  · have := I.tgt_ne'; grind
  · have := I.ownU; grind
  · have := I.doneM; grind
  · have := I.part; grind
  · have := I.past; grind
  · have := I.ldU; grind
  · -- grabI
    have := I.grabI; have h2 := I.grabO
    have h3 := hcu.allOwn 1
    simp only [Function.iterate_succ, Function.iterate_zero, Function.comp, id] at h3
    grind
  · have := I.grabO; have := I.grabI; grind
  · have := I.grabX; grind
  · have := I.byRes; grind
  · intro z hz; refine CycMin.mono (s := s) ?_ htm mono; have := I.resC; grind
  · have := I.resM; grind
  · have := I.resW; grind
  · have := I.cycC; intro z hz; refine CycMin.mono (s := s) ?_ htm mono; grind
  · -- cycI
    intro z hz i
    have hz' : inJ .cyc (s.pc z) = true := by grind
    have h1 := I.cycI z hz' i
    have h2 := (I.cycC z hz').uniq' hcu (i := i)
    grind
  · have := I.walkI; intro x c m h; refine WalkInv.mono (s := s) ?_ htm mono; grind
  · have := I.chkI; intro x c m h; refine WalkInv.mono (s := s) ?_ htm mono; grind
  · have := I.noown; grind
  · have := I.repH; grind
  · have := I.jst; grind
  · have := I.wcid; have h2 := I.noown; grind

set_option maxHeartbeats 1000000 in
theorem RInv.jstoreCyc {s : ClSt} (R : s.RInv) (I : s.CInv) {u : Nat} (hpc : s.pc u = .jstore .cyc) :
    RInv { s with st := Function.update s.st (s.tgt u) .matched, res := Function.update s.res u true, pc := Function.update s.pc u .loop } := by
  set s' : ClSt := { s with st := Function.update s.st (s.tgt u) .matched, res := Function.update s.res u true, pc := Function.update s.pc u .loop } with hs'
  have hp : ∀ x, s'.pc x = if x = u then .loop else s.pc x := fun x => Function.update_apply ..
  have hs : ∀ x, s'.st x = if x = (s.tgt u) then .matched else s.st x := fun x => Function.update_apply ..
  have ht : s'.tgt = s.tgt := rfl
  have hc : s'.cid = s.cid := rfl
  have hr : ∀ x, s'.res x = if x = u then true else s.res x := fun x => Function.update_apply ..
  have hpa : s'.partner = s.partner := rfl
  have a0 : own (s.pc u) = own (.jstore .cyc) := by rw [hpc]
  conv at a0 => rhs; simp [own, pstored, busy, afterLoad, inW, inW', inAdd, inJ]
  have b0 : own .loop = own .loop := rfl
  conv at b0 => rhs; simp [own, pstored, busy, afterLoad, inW, inW', inAdd, inJ]
  have a1 : pstored (s.pc u) = pstored (.jstore .cyc) := by rw [hpc]
  conv at a1 => rhs; simp [own, pstored, busy, afterLoad, inW, inW', inAdd, inJ]
  have b1 : pstored .loop = pstored .loop := rfl
  conv at b1 => rhs; simp [own, pstored, busy, afterLoad, inW, inW', inAdd, inJ]
  have a2 : busy (s.pc u) = busy (.jstore .cyc) := by rw [hpc]
  conv at a2 => rhs; simp [own, pstored, busy, afterLoad, inW, inW', inAdd, inJ]
  have b2 : busy .loop = busy .loop := rfl
  conv at b2 => rhs; simp [own, pstored, busy, afterLoad, inW, inW', inAdd, inJ]
  have a3 : afterLoad (s.pc u) = afterLoad (.jstore .cyc) := by rw [hpc]
  conv at a3 => rhs; simp [own, pstored, busy, afterLoad, inW, inW', inAdd, inJ]
  have b3 : afterLoad .loop = afterLoad .loop := rfl
  conv at b3 => rhs; simp [own, pstored, busy, afterLoad, inW, inW', inAdd, inJ]
  have a4 : inW (s.pc u) = inW (.jstore .cyc) := by rw [hpc]
  conv at a4 => rhs; simp [own, pstored, busy, afterLoad, inW, inW', inAdd, inJ]
  have b4 : inW .loop = inW .loop := rfl
  conv at b4 => rhs; simp [own, pstored, busy, afterLoad, inW, inW', inAdd, inJ]
  have a5 : inW' (s.pc u) = inW' (.jstore .cyc) := by rw [hpc]
  conv at a5 => rhs; simp [own, pstored, busy, afterLoad, inW, inW', inAdd, inJ]
  have b5 : inW' .loop = inW' .loop := rfl
  conv at b5 => rhs; simp [own, pstored, busy, afterLoad, inW, inW', inAdd, inJ]
  have a6 : inAdd (s.pc u) = inAdd (.jstore .cyc) := by rw [hpc]
  conv at a6 => rhs; simp [own, pstored, busy, afterLoad, inW, inW', inAdd, inJ]
  have b6 : inAdd .loop = inAdd .loop := rfl
  conv at b6 => rhs; simp [own, pstored, busy, afterLoad, inW, inW', inAdd, inJ]
  have a7 : inJ .grab (s.pc u) = inJ .grab (.jstore .cyc) := by rw [hpc]
  conv at a7 => rhs; simp [own, pstored, busy, afterLoad, inW, inW', inAdd, inJ]
  have b7 : inJ .grab .loop = inJ .grab .loop := rfl
  conv at b7 => rhs; simp [own, pstored, busy, afterLoad, inW, inW', inAdd, inJ]
  have a8 : inJ .cyc (s.pc u) = inJ .cyc (.jstore .cyc) := by rw [hpc]
  conv at a8 => rhs; simp [own, pstored, busy, afterLoad, inW, inW', inAdd, inJ]
  have b8 : inJ .cyc .loop = inJ .cyc .loop := rfl
  conv at b8 => rhs; simp [own, pstored, busy, afterLoad, inW, inW', inAdd, inJ]
  have mono : ∀ x, own (s.pc x) = true → own (s'.pc x) = true := by
    intro x hx; rw [hp]; split
    · rfl
    · exact hx
  have htm : ∀ x, own (s.pc x) = true → s'.tgt x = s.tgt x := fun _ _ => rfl
  have c1 := @own_of_inJ
  have c2 := @own_of_busy
  have c3 := @own_of_afterLoad
  have hsv := I.cycI u (by grind) 1
  have hW := I.target_waits (z := u) (by grind)
  have hvu : s.tgt u ≠ u := I.tgt_ne u (by grind)
  have c5 := @busy_not_inW
  have c6 := @busy_of_inJ
  have hcu : s.CycMin u := I.cycC u (by grind)
  have hcv := R.held u (by grind)
  clear_value s'
  clear hs'
  constructor
  all_goals try simp only [ht, hc, hpa]
  · have := R.busyI; grind
  · have := R.root; have := I.noown; grind
  · have := R.held; grind
  · have := R.repM; grind

set_option maxHeartbeats 1000000 in
theorem CInv.fin1Step {s : ClSt} (I : s.CInv) {u : Nat} (hpc : s.pc u = .fin1) :
    CInv { s with partner := Function.update s.partner u u, pc := Function.update s.pc u .fin2 } := by
  set s' : ClSt := { s with partner := Function.update s.partner u u, pc := Function.update s.pc u .fin2 } with hs'
  have hp : ∀ x, s'.pc x = if x = u then .fin2 else s.pc x := fun x => Function.update_apply ..
  have hs : s'.st = s.st := rfl
  have ht : s'.tgt = s.tgt := rfl
  have hc : s'.cid = s.cid := rfl
  have hr : s'.res = s.res := rfl
  have hpa : ∀ x, s'.partner x = if x = u then u else s.partner x := fun x => Function.update_apply ..
  have a0 : own (s.pc u) = own .fin1 := by rw [hpc]
  conv at a0 => rhs; simp [own, pstored, busy, afterLoad, inW, inW', inAdd, inJ]
  have b0 : own .fin2 = own .fin2 := rfl
  conv at b0 => rhs; simp [own, pstored, busy, afterLoad, inW, inW', inAdd, inJ]
  have a1 : pstored (s.pc u) = pstored .fin1 := by rw [hpc]
  conv at a1 => rhs; simp [own, pstored, busy, afterLoad, inW, inW', inAdd, inJ]
  have b1 : pstored .fin2 = pstored .fin2 := rfl
  conv at b1 => rhs; simp [own, pstored, busy, afterLoad, inW, inW', inAdd, inJ]
  have a2 : busy (s.pc u) = busy .fin1 := by rw [hpc]
  conv at a2 => rhs; simp [own, pstored, busy, afterLoad, inW, inW', inAdd, inJ]
  have b2 : busy .fin2 = busy .fin2 := rfl
  conv at b2 => rhs; simp [own, pstored, busy, afterLoad, inW, inW', inAdd, inJ]
  have a3 : afterLoad (s.pc u) = afterLoad .fin1 := by rw [hpc]
  conv at a3 => rhs; simp [own, pstored, busy, afterLoad, inW, inW', inAdd, inJ]
  have b3 : afterLoad .fin2 = afterLoad .fin2 := rfl
  conv at b3 => rhs; simp [own, pstored, busy, afterLoad, inW, inW', inAdd, inJ]
  have a4 : inW (s.pc u) = inW .fin1 := by rw [hpc]
  conv at a4 => rhs; simp [own, pstored, busy, afterLoad, inW, inW', inAdd, inJ]
  have b4 : inW .fin2 = inW .fin2 := rfl
  conv at b4 => rhs; simp [own, pstored, busy, afterLoad, inW, inW', inAdd, inJ]
  have a5 : inW' (s.pc u) = inW' .fin1 := by rw [hpc]
  conv at a5 => rhs; simp [own, pstored, busy, afterLoad, inW, inW', inAdd, inJ]
  have b5 : inW' .fin2 = inW' .fin2 := rfl
  conv at b5 => rhs; simp [own, pstored, busy, afterLoad, inW, inW', inAdd, inJ]
  have a6 : inAdd (s.pc u) = inAdd .fin1 := by rw [hpc]
  conv at a6 => rhs; simp [own, pstored, busy, afterLoad, inW, inW', inAdd, inJ]
  have b6 : inAdd .fin2 = inAdd .fin2 := rfl
  conv at b6 => rhs; simp [own, pstored, busy, afterLoad, inW, inW', inAdd, inJ]
  have a7 : inJ .grab (s.pc u) = inJ .grab .fin1 := by rw [hpc]
  conv at a7 => rhs; simp [own, pstored, busy, afterLoad, inW, inW', inAdd, inJ]
  have b7 : inJ .grab .fin2 = inJ .grab .fin2 := rfl
  conv at b7 => rhs; simp [own, pstored, busy, afterLoad, inW, inW', inAdd, inJ]
  have a8 : inJ .cyc (s.pc u) = inJ .cyc .fin1 := by rw [hpc]
  conv at a8 => rhs; simp [own, pstored, busy, afterLoad, inW, inW', inAdd, inJ]
  have b8 : inJ .cyc .fin2 = inJ .cyc .fin2 := rfl
  conv at b8 => rhs; simp [own, pstored, busy, afterLoad, inW, inW', inAdd, inJ]
  have mono : ∀ x, own (s.pc x) = true → own (s'.pc x) = true := by
    intro x hx; rw [hp]; split
    · rfl
    · exact hx
  have htm : ∀ x, own (s.pc x) = true → s'.tgt x = s.tgt x := fun _ _ => rfl
  have c1 := @own_of_inJ
  have c2 := @own_of_busy
  have c3 := @own_of_afterLoad
  clear_value s'
  clear hs'
  constructor
  all_goals try simp only [ht, hs, hc, hr]
  · have := I.tgt_ne; have := I.tgt_ne'; grind
  · have := I.tgt_ne'; grind
  · have := I.ownU; grind
  · have := I.doneM; grind
  · have := I.part; grind
  · have := I.past; grind
  · have := I.ldU; grind
  · have := I.grabI; grind
  · have := I.grabO; have := I.grabI; grind
  · have := I.grabX; grind
  · have := I.byRes; grind
  · intro z hz; refine CycMin.mono (s := s) ?_ htm mono; have := I.resC; grind
  · have := I.resM; grind
  · have := I.resW; grind
  · have := I.cycC; intro z hz; refine CycMin.mono (s := s) ?_ htm mono; grind
  · have := I.cycI; grind
  · have := I.walkI; intro x c m h; refine WalkInv.mono (s := s) ?_ htm mono; grind
  · have := I.chkI; intro x c m h; refine WalkInv.mono (s := s) ?_ htm mono; grind
  · have := I.noown; grind
  · have := I.repH; grind
  · have := I.jst; grind
  · have := I.wcid; have h2 := I.noown; grind

set_option maxHeartbeats 1000000 in
theorem RInv.fin1Step {s : ClSt} (R : s.RInv) (I : s.CInv) {u : Nat} (hpc : s.pc u = .fin1) :
    RInv { s with partner := Function.update s.partner u u, pc := Function.update s.pc u .fin2 } := by
  set s' : ClSt := { s with partner := Function.update s.partner u u, pc := Function.update s.pc u .fin2 } with hs'
  have hp : ∀ x, s'.pc x = if x = u then .fin2 else s.pc x := fun x => Function.update_apply ..
  have hs : s'.st = s.st := rfl
  have ht : s'.tgt = s.tgt := rfl
  have hc : s'.cid = s.cid := rfl
  have hr : s'.res = s.res := rfl
  have hpa : ∀ x, s'.partner x = if x = u then u else s.partner x := fun x => Function.update_apply ..
  have a0 : own (s.pc u) = own .fin1 := by rw [hpc]
  conv at a0 => rhs; simp [own, pstored, busy, afterLoad, inW, inW', inAdd, inJ]
  have b0 : own .fin2 = own .fin2 := rfl
  conv at b0 => rhs; simp [own, pstored, busy, afterLoad, inW, inW', inAdd, inJ]
  have a1 : pstored (s.pc u) = pstored .fin1 := by rw [hpc]
  conv at a1 => rhs; simp [own, pstored, busy, afterLoad, inW, inW', inAdd, inJ]
  have b1 : pstored .fin2 = pstored .fin2 := rfl
  conv at b1 => rhs; simp [own, pstored, busy, afterLoad, inW, inW', inAdd, inJ]
  have a2 : busy (s.pc u) = busy .fin1 := by rw [hpc]
  conv at a2 => rhs; simp [own, pstored, busy, afterLoad, inW, inW', inAdd, inJ]
  have b2 : busy .fin2 = busy .fin2 := rfl
  conv at b2 => rhs; simp [own, pstored, busy, afterLoad, inW, inW', inAdd, inJ]
  have a3 : afterLoad (s.pc u) = afterLoad .fin1 := by rw [hpc]
  conv at a3 => rhs; simp [own, pstored, busy, afterLoad, inW, inW', inAdd, inJ]
  have b3 : afterLoad .fin2 = afterLoad .fin2 := rfl
  conv at b3 => rhs; simp [own, pstored, busy, afterLoad, inW, inW', inAdd, inJ]
  have a4 : inW (s.pc u) = inW .fin1 := by rw [hpc]
  conv at a4 => rhs; simp [own, pstored, busy, afterLoad, inW, inW', inAdd, inJ]
  have b4 : inW .fin2 = inW .fin2 := rfl
  conv at b4 => rhs; simp [own, pstored, busy, afterLoad, inW, inW', inAdd, inJ]
  have a5 : inW' (s.pc u) = inW' .fin1 := by rw [hpc]
  conv at a5 => rhs; simp [own, pstored, busy, afterLoad, inW, inW', inAdd, inJ]
  have b5 : inW' .fin2 = inW' .fin2 := rfl
  conv at b5 => rhs; simp [own, pstored, busy, afterLoad, inW, inW', inAdd, inJ]
  have a6 : inAdd (s.pc u) = inAdd .fin1 := by rw [hpc]
  conv at a6 => rhs; simp [own, pstored, busy, afterLoad, inW, inW', inAdd, inJ]
  have b6 : inAdd .fin2 = inAdd .fin2 := rfl
  conv at b6 => rhs; simp [own, pstored, busy, afterLoad, inW, inW', inAdd, inJ]
  have a7 : inJ .grab (s.pc u) = inJ .grab .fin1 := by rw [hpc]
  conv at a7 => rhs; simp [own, pstored, busy, afterLoad, inW, inW', inAdd, inJ]
  have b7 : inJ .grab .fin2 = inJ .grab .fin2 := rfl
  conv at b7 => rhs; simp [own, pstored, busy, afterLoad, inW, inW', inAdd, inJ]
  have a8 : inJ .cyc (s.pc u) = inJ .cyc .fin1 := by rw [hpc]
  conv at a8 => rhs; simp [own, pstored, busy, afterLoad, inW, inW', inAdd, inJ]
  have b8 : inJ .cyc .fin2 = inJ .cyc .fin2 := rfl
  conv at b8 => rhs; simp [own, pstored, busy, afterLoad, inW, inW', inAdd, inJ]
  have mono : ∀ x, own (s.pc x) = true → own (s'.pc x) = true := by
    intro x hx; rw [hp]; split
    · rfl
    · exact hx
  have htm : ∀ x, own (s.pc x) = true → s'.tgt x = s.tgt x := fun _ _ => rfl
  have c1 := @own_of_inJ
  have c2 := @own_of_busy
  have c3 := @own_of_afterLoad
  clear_value s'
  clear hs'
  constructor
  all_goals try simp only [ht, hs, hc, hr]
  · have := R.busyI; grind
  · have := R.root; have := I.noown; grind
  · have := R.held; grind
  · have := R.repM; grind

set_option maxHeartbeats 1000000 in
theorem CInv.fin2Step {s : ClSt} (I : s.CInv) {u : Nat} (hpc : s.pc u = .fin2) :
    CInv { s with st := Function.update s.st u .matched, pc := Function.update s.pc u .done } := by
  set s' : ClSt := { s with st := Function.update s.st u .matched, pc := Function.update s.pc u .done } with hs'
  have hp : ∀ x, s'.pc x = if x = u then .done else s.pc x := fun x => Function.update_apply ..
  have hs : ∀ x, s'.st x = if x = u then .matched else s.st x := fun x => Function.update_apply ..
  have ht : s'.tgt = s.tgt := rfl
  have hc : s'.cid = s.cid := rfl
  have hr : s'.res = s.res := rfl
  have hpa : s'.partner = s.partner := rfl
  have a0 : own (s.pc u) = own .fin2 := by rw [hpc]
  conv at a0 => rhs; simp [own, pstored, busy, afterLoad, inW, inW', inAdd, inJ]
  have b0 : own .done = own .done := rfl
  conv at b0 => rhs; simp [own, pstored, busy, afterLoad, inW, inW', inAdd, inJ]
  have a1 : pstored (s.pc u) = pstored .fin2 := by rw [hpc]
  conv at a1 => rhs; simp [own, pstored, busy, afterLoad, inW, inW', inAdd, inJ]
  have b1 : pstored .done = pstored .done := rfl
  conv at b1 => rhs; simp [own, pstored, busy, afterLoad, inW, inW', inAdd, inJ]
  have a2 : busy (s.pc u) = busy .fin2 := by rw [hpc]
  conv at a2 => rhs; simp [own, pstored, busy, afterLoad, inW, inW', inAdd, inJ]
  have b2 : busy .done = busy .done := rfl
  conv at b2 => rhs; simp [own, pstored, busy, afterLoad, inW, inW', inAdd, inJ]
  have a3 : afterLoad (s.pc u) = afterLoad .fin2 := by rw [hpc]
  conv at a3 => rhs; simp [own, pstored, busy, afterLoad, inW, inW', inAdd, inJ]
  have b3 : afterLoad .done = afterLoad .done := rfl
  conv at b3 => rhs; simp [own, pstored, busy, afterLoad, inW, inW', inAdd, inJ]
  have a4 : inW (s.pc u) = inW .fin2 := by rw [hpc]
  conv at a4 => rhs; simp [own, pstored, busy, afterLoad, inW, inW', inAdd, inJ]
  have b4 : inW .done = inW .done := rfl
  conv at b4 => rhs; simp [own, pstored, busy, afterLoad, inW, inW', inAdd, inJ]
  have a5 : inW' (s.pc u) = inW' .fin2 := by rw [hpc]
  conv at a5 => rhs; simp [own, pstored, busy, afterLoad, inW, inW', inAdd, inJ]
  have b5 : inW' .done = inW' .done := rfl
  conv at b5 => rhs; simp [own, pstored, busy, afterLoad, inW, inW', inAdd, inJ]
  have a6 : inAdd (s.pc u) = inAdd .fin2 := by rw [hpc]
  conv at a6 => rhs; simp [own, pstored, busy, afterLoad, inW, inW', inAdd, inJ]
  have b6 : inAdd .done = inAdd .done := rfl
  conv at b6 => rhs; simp [own, pstored, busy, afterLoad, inW, inW', inAdd, inJ]
  have a7 : inJ .grab (s.pc u) = inJ .grab .fin2 := by rw [hpc]
  conv at a7 => rhs; simp [own, pstored, busy, afterLoad, inW, inW', inAdd, inJ]
  have b7 : inJ .grab .done = inJ .grab .done := rfl
  conv at b7 => rhs; simp [own, pstored, busy, afterLoad, inW, inW', inAdd, inJ]
  have a8 : inJ .cyc (s.pc u) = inJ .cyc .fin2 := by rw [hpc]
  conv at a8 => rhs; simp [own, pstored, busy, afterLoad, inW, inW', inAdd, inJ]
  have b8 : inJ .cyc .done = inJ .cyc .done := rfl
  conv at b8 => rhs; simp [own, pstored, busy, afterLoad, inW, inW', inAdd, inJ]
  have mono : ∀ x, own (s.pc x) = true → own (s'.pc x) = true := by
    intro x hx; rw [hp]; split
    · rfl
    · exact hx
  have htm : ∀ x, own (s.pc x) = true → s'.tgt x = s.tgt x := fun _ _ => rfl
  have c1 := @own_of_inJ
  have c2 := @own_of_busy
  have c3 := @own_of_afterLoad
  have hM : s.st (s.tgt u) = .matched := by have := I.past u (by grind); grind
  clear_value s'
  clear hs'
  constructor
  all_goals try simp only [ht, hc, hr, hpa]
  · have := I.tgt_ne; have := I.tgt_ne'; grind
  · have := I.tgt_ne'; grind
  · have := I.ownU; grind
  · have := I.doneM; grind
  · have := I.part; grind
  · have := I.past; grind
  · have := I.ldU; grind
  · have := I.grabI; have h2 := I.grabO; grind
  · have := I.grabO; have := I.grabI; grind
  · have := I.grabX; grind
  · have := I.byRes; grind
  · intro z hz; refine CycMin.mono (s := s) ?_ htm mono; have := I.resC; grind
  · have := I.resM; grind
  · have := I.resW; grind
  · have := I.cycC; intro z hz; refine CycMin.mono (s := s) ?_ htm mono; grind
  · -- cycI
    intro z hz i
    have hz' : inJ .cyc (s.pc z) = true := by grind
    have h1 := I.cycI z hz' i
    have h2 := I.cycI z hz' (i + 1)
    rw [Function.iterate_succ_apply'] at h2
    grind
  · have := I.walkI; intro x c m h; refine WalkInv.mono (s := s) ?_ htm mono; grind
  · have := I.chkI; intro x c m h; refine WalkInv.mono (s := s) ?_ htm mono; grind
  · have := I.noown; grind
  · have := I.repH; grind
  · have := I.jst; grind
  · have := I.wcid; have h2 := I.noown; grind

set_option maxHeartbeats 1000000 in
theorem RInv.fin2Step {s : ClSt} (R : s.RInv) (I : s.CInv) {u : Nat} (hpc : s.pc u = .fin2) :
    RInv { s with st := Function.update s.st u .matched, pc := Function.update s.pc u .done } := by
  set s' : ClSt := { s with st := Function.update s.st u .matched, pc := Function.update s.pc u .done } with hs'
  have hp : ∀ x, s'.pc x = if x = u then .done else s.pc x := fun x => Function.update_apply ..
  have hs : ∀ x, s'.st x = if x = u then .matched else s.st x := fun x => Function.update_apply ..
  have ht : s'.tgt = s.tgt := rfl
  have hc : s'.cid = s.cid := rfl
  have hr : s'.res = s.res := rfl
  have hpa : s'.partner = s.partner := rfl
  have a0 : own (s.pc u) = own .fin2 := by rw [hpc]
  conv at a0 => rhs; simp [own, pstored, busy, afterLoad, inW, inW', inAdd, inJ]
  have b0 : own .done = own .done := rfl
  conv at b0 => rhs; simp [own, pstored, busy, afterLoad, inW, inW', inAdd, inJ]
  have a1 : pstored (s.pc u) = pstored .fin2 := by rw [hpc]
  conv at a1 => rhs; simp [own, pstored, busy, afterLoad, inW, inW', inAdd, inJ]
  have b1 : pstored .done = pstored .done := rfl
  conv at b1 => rhs; simp [own, pstored, busy, afterLoad, inW, inW', inAdd, inJ]
  have a2 : busy (s.pc u) = busy .fin2 := by rw [hpc]
  conv at a2 => rhs; simp [own, pstored, busy, afterLoad, inW, inW', inAdd, inJ]
  have b2 : busy .done = busy .done := rfl
  conv at b2 => rhs; simp [own, pstored, busy, afterLoad, inW, inW', inAdd, inJ]
  have a3 : afterLoad (s.pc u) = afterLoad .fin2 := by rw [hpc]
  conv at a3 => rhs; simp [own, pstored, busy, afterLoad, inW, inW', inAdd, inJ]
  have b3 : afterLoad .done = afterLoad .done := rfl
  conv at b3 => rhs; simp [own, pstored, busy, afterLoad, inW, inW', inAdd, inJ]
  have a4 : inW (s.pc u) = inW .fin2 := by rw [hpc]
  conv at a4 => rhs; simp [own, pstored, busy, afterLoad, inW, inW', inAdd, inJ]
  have b4 : inW .done = inW .done := rfl
  conv at b4 => rhs; simp [own, pstored, busy, afterLoad, inW, inW', inAdd, inJ]
  have a5 : inW' (s.pc u) = inW' .fin2 := by rw [hpc]
  conv at a5 => rhs; simp [own, pstored, busy, afterLoad, inW, inW', inAdd, inJ]
  have b5 : inW' .done = inW' .done := rfl
  conv at b5 => rhs; simp [own, pstored, busy, afterLoad, inW, inW', inAdd, inJ]
  have a6 : inAdd (s.pc u) = inAdd .fin2 := by rw [hpc]
  conv at a6 => rhs; simp [own, pstored, busy, afterLoad, inW, inW', inAdd, inJ]
  have b6 : inAdd .done = inAdd .done := rfl
  conv at b6 => rhs; simp [own, pstored, busy, afterLoad, inW, inW', inAdd, inJ]
  have a7 : inJ .grab (s.pc u) = inJ .grab .fin2 := by rw [hpc]
  conv at a7 => rhs; simp [own, pstored, busy, afterLoad, inW, inW', inAdd, inJ]
  have b7 : inJ .grab .done = inJ .grab .done := rfl
  conv at b7 => rhs; simp [own, pstored, busy, afterLoad, inW, inW', inAdd, inJ]
  have a8 : inJ .cyc (s.pc u) = inJ .cyc .fin2 := by rw [hpc]
  conv at a8 => rhs; simp [own, pstored, busy, afterLoad, inW, inW', inAdd, inJ]
  have b8 : inJ .cyc .done = inJ .cyc .done := rfl
  conv at b8 => rhs; simp [own, pstored, busy, afterLoad, inW, inW', inAdd, inJ]
  have mono : ∀ x, own (s.pc x) = true → own (s'.pc x) = true := by
    intro x hx; rw [hp]; split
    · rfl
    · exact hx
  have htm : ∀ x, own (s.pc x) = true → s'.tgt x = s.tgt x := fun _ _ => rfl
  have c1 := @own_of_inJ
  have c2 := @own_of_busy
  have c3 := @own_of_afterLoad
  have hM : s.st (s.tgt u) = .matched := by have := I.past u (by grind); grind
  clear_value s'
  clear hs'
  constructor
  all_goals try simp only [ht, hc, hr, hpa]
  · have := R.busyI; grind
  · have := R.root; have := I.noown; grind
  · have := R.held; grind
  · have := R.repM; grind

end ClSt
end Verif
