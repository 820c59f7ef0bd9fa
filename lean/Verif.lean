import Verif.Props.C01_C04
import Verif.Props.C08
import Verif.Props.C09
import Verif.Props.C07
import Verif.Props.C10
import Verif.Props.C05_C06_C11_C14
import Verif.Props.C29
import Verif.Props.C30
import Verif.Props.C31
import Verif.Props.C15_C16
import Verif.Props.C17
import Verif.Props.C36_C37
import Verif.Props.C18_C19
import Verif.Props.C32_C38
import Verif.Props.C35
import Verif.Props.C26
import Verif.Props.C24
import Verif.Props.C25_C39
import Verif.Props.C20
import Verif.Props.C23
import Verif.Props.C33
import Verif.Props.C34
import Verif.Props.C21
import Verif.Props.C22
import Verif.Props.C40
import Verif.Spec.Schedule
import Verif.Model.Batches
import Verif.Lemmas.Batches1
import Verif.Lemmas.Batches2
import Verif.Lemmas.Batches3
import Verif.Lemmas.Batches4
import Verif.Lemmas.Batches5
import Verif.Lemmas.Batches6
import Verif.Lemmas.Batches7
import Verif.Lemmas.Batches8
import Verif.Props.C28
import Verif.Spec.NLevel
import Verif.Model.IncidentNets
import Verif.Model.DynamicHypergraph
import Verif.Lemmas.Dyn1
import Verif.Lemmas.Dyn2
import Verif.Lemmas.Dyn3
import Verif.Lemmas.Dyn4
import Verif.Lemmas.Dyn5
import Verif.Lemmas.Dyn6
import Verif.Lemmas.Dyn7
import Verif.Lemmas.Dyn8
import Verif.Lemmas.Dyn9
import Verif.Lemmas.Dyn10
import Verif.Lemmas.Dyn11
import Verif.Lemmas.Dyn12
import Verif.Lemmas.Dyn13
import Verif.Lemmas.Dyn14
import Verif.Lemmas.Dyn15
import Verif.Lemmas.Dyn16
import Verif.Lemmas.Dyn17
import Verif.Lemmas.Dyn18
import Verif.Lemmas.Dyn19
import Verif.Lemmas.DynW
import Verif.Props.C41
import Verif.Lemmas.Dyn20
import Verif.Lemmas.Dyn21
import Verif.Lemmas.Dyn22
import Verif.Lemmas.Dyn23
import Verif.Lemmas.Dyn24
import Verif.Lemmas.Dyn25
import Verif.Lemmas.Dyn26
import Verif.Lemmas.Dyn27
import Verif.Lemmas.Dyn28
import Verif.Lemmas.Dyn29
import Verif.Lemmas.Dyn30
import Verif.Props.C27
import Verif.Model.NLevelPartition
import Verif.Lemmas.NLP1
import Verif.Lemmas.NLP2
import Verif.Lemmas.NLP3
import Verif.Lemmas.NLP4
import Verif.Lemmas.NLP5
import Verif.Lemmas.NLP6
import Verif.Lemmas.NLP7
import Verif.Lemmas.NLP8
import Verif.Lemmas.NLP9
import Verif.Lemmas.NLP10
import Verif.Lemmas.NLP11
import Verif.Lemmas.NLP12
import Verif.Lemmas.NLP13
import Verif.Props.C42
import Verif.Model.Parallel
import Verif.Model.DetCoarsening
import Verif.Lemmas.DetC1
import Verif.Lemmas.DetC2
import Verif.Lemmas.DetC3
import Verif.Lemmas.DetC4
import Verif.Lemmas.DetC5
import Verif.Lemmas.DetC6
import Verif.Lemmas.DetC7
import Verif.Lemmas.DetC8
import Verif.Lemmas.DetC9
import Verif.Lemmas.DetC10
import Verif.Lemmas.DetCRun
import Verif.Props.C43
import Verif.Model.DetLP
import Verif.Lemmas.DetLP1
import Verif.Lemmas.DetLP2
import Verif.Lemmas.DetLP3
import Verif.Lemmas.DetLP4
import Verif.Lemmas.DetLP5
import Verif.Lemmas.DetLP6
import Verif.Lemmas.DetLP7
import Verif.Props.C44
import Verif.Model.GainComputation
import Verif.Lemmas.GainComp1
import Verif.Lemmas.GainComp2
import Verif.Lemmas.GainComp3
import Verif.Props.C45
import Verif.Model.Preprocess
import Verif.Lemmas.Prep1
import Verif.Lemmas.Prep2
import Verif.Lemmas.Prep3
import Verif.Lemmas.Prep4
import Verif.Lemmas.Prep5
import Verif.Props.C46
import Verif.Model.InitialPool
import Verif.Lemmas.Pool1
import Verif.Lemmas.Pool2
import Verif.Lemmas.Pool3
import Verif.Props.C47
import Verif.Model.FlowScheduler
import Verif.Lemmas.Flow1
import Verif.Lemmas.Flow2
import Verif.Lemmas.Flow3
import Verif.Lemmas.Flow4
import Verif.Props.C48_C49
import Verif.Model.StaticGraph
import Verif.Spec.StaticGraph
import Verif.Lemmas.SG1
import Verif.Lemmas.SG2
import Verif.Lemmas.SG3
import Verif.Lemmas.SG4
import Verif.Lemmas.SG5
import Verif.Lemmas.SG6
import Verif.Lemmas.SG7
import Verif.Lemmas.SG8
import Verif.Props.C50
import Verif.Props.C51
import Verif.Model.DetFlow
import Verif.Lemmas.DFlow1
import Verif.Lemmas.DFlow2
import Verif.Lemmas.DFlow3
import Verif.Lemmas.DFlow4
import Verif.Lemmas.DFlow5
import Verif.Lemmas.DFlow6
import Verif.Lemmas.DFlow7
import Verif.Lemmas.DFlow8
import Verif.Lemmas.DFlow9
import Verif.Lemmas.DFlow10
import Verif.Props.C52_C54
import Verif.Model.FlowNetwork
import Verif.Lemmas.FNet1
import Verif.Lemmas.FNet2
import Verif.Lemmas.FNet3
import Verif.Lemmas.FNet4
import Verif.Lemmas.FNet5
import Verif.Lemmas.FNet6
import Verif.Lemmas.FNet7
import Verif.Lemmas.FNet8
import Verif.Lemmas.FNet9
import Verif.Props.C55_C58
import Verif.Model.TwoWayFM
import Verif.Lemmas.TW1
import Verif.Lemmas.TW2
import Verif.Lemmas.TW3
import Verif.Lemmas.TW4
import Verif.Lemmas.TW5
import Verif.Lemmas.TW6
import Verif.Props.C59
import Verif.Model.Mapping
import Verif.Lemmas.Map1
import Verif.Lemmas.Map2
import Verif.Lemmas.Map3
import Verif.Lemmas.Map4
import Verif.Lemmas.Map5
import Verif.Lemmas.Map6
import Verif.Props.C60_C62
import Verif.Model.DetRebalancer
import Verif.Lemmas.DReb1
import Verif.Lemmas.DReb2
import Verif.Props.C63
import Verif.Model.Jet
import Verif.Lemmas.Jet1
import Verif.Lemmas.Jet2
import Verif.Lemmas.Jet3
import Verif.Lemmas.Jet4
import Verif.Props.C64
import Verif.Props.C65
import Verif.Model.JetGraph
import Verif.Props.C66
import Verif.Spec.Placement
import Verif.Model.FlatIP
import Verif.Props.C67
import Verif.Model.LPIP
import Verif.Props.C68
