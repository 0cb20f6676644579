import Verif.Common.Dict
import Verif.Petri.Model
import Verif.Petri.Spec
import Verif.Petri.Proofs
import Verif.Petri.ProofsMarking
import Verif.Petri.Theorems
import Verif.Petri.Incidence
import Verif.Petri.Reach
import Verif.PTree.Lang
import Verif.PTree.LangLemmas
import Verif.PTree.Model
import Verif.PTree.Spec
import Verif.PTree.ProofsTau
import Verif.PTree.ProofsFold
import Verif.PTree.ProofsOther
import Verif.PTree.ProofsNormal
import Verif.PTree.Theorems
import Verif.PTree.ParserTheorems
import Verif.Common.ListX
import Verif.Common.Counter
import Verif.Text.Levenshtein
import Verif.Log.Trie
import Verif.Log.Overlap
import Verif.Log.Dfg
import Verif.Streaming.Dfg
import Verif.Powl.BinaryRelation
import Verif.Skeleton.Theorems
import Verif.Inductive.Model
import Verif.Inductive.Basic
import Verif.Inductive.Groups
import Verif.Inductive.Seq
import Verif.Inductive.Strict
import Verif.Inductive.Project
import Verif.Inductive.Loop
import Verif.Inductive.Steps
import Verif.Inductive.Theorems
import Verif.Petri.Sys
import Verif.Convert.Block
import Verif.Convert.BlockLoop
import Verif.Convert.BlockInter
import Verif.Convert.BlockOr
import Verif.Convert.Model
import Verif.Convert.Build
import Verif.Convert.Fuse
import Verif.Convert.Reduce
import Verif.Convert.ReduceSteps
import Verif.Convert.Apply
import Verif.Convert.Theorems
import Verif.Align.Model
import Verif.Align.Product
import Verif.Align.Dijkstra
import Verif.Align.Search
import Verif.Align.Theorems
import Verif.Align.LessMemory
import Verif.Align.LessMemoryProofs
import Verif.Align.LessMemoryTheorems
import Verif.Align.AStar
import Verif.Align.AStarProofs
import Verif.Align.AStarTerm
import Verif.Align.AStarTheorems
import Verif.Align.AStarExamples
import Verif.Align.Fitness
import Verif.Align.FitnessTheorems
import Verif.Align.FitnessExamples
import Verif.PTree.Visible
import Verif.Footprints.Spec
import Verif.Footprints.Model
import Verif.Footprints.Proofs
import Verif.Footprints.Exact
import Verif.Footprints.Theorems
import Verif.Footprints.Refuted
import Verif.Footprints.Evaluation
import Verif.PTree.BottomUp
import Verif.PTree.BottomUpProofs
import Verif.Footprints.BottomUpTheorems
import Verif.Declare.Spec
import Verif.Declare.Model
import Verif.Declare.Proofs
import Verif.Declare.Theorems
import Verif.Declare.Discovery
import Verif.Declare.Agreement
import Verif.Declare.Refuted
import Verif.Filter.Spec
import Verif.Filter.Model
import Verif.Filter.Proofs
import Verif.Filter.Loops
import Verif.Filter.Theorems
import Verif.Filter.Frame
import Verif.Ocel.Spec
import Verif.Ocel.Model
import Verif.Ocel.Theorems
import Verif.Ocel.Filters
import Verif.Ocel.FilterTheorems
import Verif.Petri.Playout
import Verif.Petri.PlayoutTheorems
import Verif.Replay.Examples
import Verif.Dfg.Examples
import Verif.Dfg.Closure
import Verif.Dfg.Filtering
import Verif.Dfg.FilteringProofs
import Verif.Dfg.FilteringTheorems
import Verif.Dfg.Graph
import Verif.Dfg.Targets
import Verif.PTree.Parser
import Verif.PTree.ParserProofs
import Verif.Replay.Invariant
import Verif.Replay.Log
import Verif.Replay.Model
import Verif.Replay.Paths
import Verif.Replay.Spec
import Verif.Replay.StateMachine
import Verif.Replay.Theorems
import Verif.Replay.Tokens
import Verif.Replay.Walk
import Verif.Skeleton.Model
import Verif.Skeleton.Proofs
import Verif.TraceFilter.BetweenProofs
import Verif.TraceFilter.Examples
import Verif.TraceFilter.Frame
import Verif.TraceFilter.FrameBetween
import Verif.TraceFilter.FrameExamples
import Verif.TraceFilter.FrameProofs
import Verif.TraceFilter.FrameTheorems
import Verif.TraceFilter.FrameTheorems2
import Verif.TraceFilter.FrameTheorems3
import Verif.TraceFilter.Log
import Verif.TraceFilter.Proofs
import Verif.TraceFilter.Proofs2
import Verif.TraceFilter.Spec
import Verif.TraceFilter.Theorems
import Verif.LogConv.Examples
import Verif.LogConv.Model
import Verif.LogConv.Spec
import Verif.LogConv.Theorems
import Verif.DfgNet.Examples
import Verif.DfgNet.Model
import Verif.DfgNet.Playout
import Verif.DfgNet.PlayoutApply
import Verif.DfgNet.PlayoutProofs
import Verif.DfgNet.PlayoutTheorems
import Verif.DfgNet.Proofs
import Verif.DfgNet.Spec
import Verif.DfgNet.Theorems
import Verif.Alpha.Examples
import Verif.Alpha.Model
import Verif.Alpha.Proofs
import Verif.Alpha.Sequence
import Verif.Alpha.Theorems
import Verif.TreePlayout.Extensive
import Verif.TreePlayout.Model
import Verif.TreePlayout.Proofs
import Verif.TreePlayout.Theorems
import Verif.TreePlayout.ExtExamples
import Verif.TreePlayout.ExtLoop
import Verif.TreePlayout.ExtMain
import Verif.TreePlayout.ExtProofs
import Verif.TreePlayout.ExtTheorems
import Verif.Powl.BlockPo
import Verif.Powl.BlockPoC
import Verif.Powl.Build
import Verif.Powl.BuildPo
import Verif.Powl.Lang
import Verif.Powl.Model
import Verif.Powl.NetTheorems
import Verif.Powl.Order
import Verif.Powl.Spec
import Verif.Powl.PoG
import Verif.Powl.Simplify
import Verif.Powl.SimplifyTheorems
import Verif.Powl.Miner
import Verif.Powl.MinerRec
import Verif.Powl.MinerSteps
import Verif.Powl.MinerTheorems
import Verif.Powl.MinerCut
import Verif.Ltl.Model
import Verif.Ltl.Proofs
import Verif.Ltl.Spec
import Verif.Ltl.Theorems
import Verif.DfgAlign.Main
import Verif.DfgAlign.Model
import Verif.DfgAlign.Moves
import Verif.DfgAlign.Paths
import Verif.DfgAlign.Progress
import Verif.DfgAlign.Search
import Verif.DfgAlign.Spec
import Verif.WfTree.Atomic
import Verif.WfTree.Choice
import Verif.WfTree.Conc
import Verif.WfTree.Dummy
import Verif.WfTree.Examples
import Verif.WfTree.Loop
import Verif.WfTree.Loops
import Verif.WfTree.Model
import Verif.WfTree.Sem
import Verif.WfTree.Sequence
import Verif.WfTree.Spec
import Verif.WfTree.Steps
import Verif.WfTree.Steps2
import Verif.WfTree.Theorems
import Verif.WfTree.WfCheck
import Verif.TreeRed.Exact
import Verif.TreeRed.Exact2
import Verif.TreeRed.Exact3
import Verif.TreeRed.ExactTheorems
import Verif.TreeRed.Examples
import Verif.TreeRed.Model
import Verif.TreeRed.Proofs
import Verif.TreeRed.Red
import Verif.TreeRed.Theorems
import Verif.TreePowl.Model
import Verif.TreePowl.Theorems
import Verif.Regex.Model
import Verif.Regex.Proofs
import Verif.Regex.Spec
import Verif.Regex.Theorems
import Verif.Ptml.Model
import Verif.Ptml.Proofs
import Verif.Ptml.Theorems
import Verif.DfgFile.Model
import Verif.DfgFile.Proofs
import Verif.DfgFile.Theorems
import Verif.Pnml.Model
import Verif.Pnml.Proofs
import Verif.Pnml.Proofs2
import Verif.Pnml.Theorems
import Verif.Xes.Bytes
import Verif.Xes.Chunks
import Verif.Xes.IterModel
import Verif.Xes.IterProofs
import Verif.Xes.IterTheorems
import Verif.Xes.LinesModel
import Verif.Xes.LinesProofs
import Verif.Xes.LinesTheorems
import Verif.Xes.Model
import Verif.Xes.Proofs
import Verif.Xes.Proofs2
import Verif.Xes.Spec
import Verif.Xes.Text
import Verif.Xes.Theorems
import Verif.Woflan.Basic
import Verif.Woflan.Cover
import Verif.Woflan.Cover2
import Verif.Woflan.Examples
import Verif.Woflan.Model
import Verif.Woflan.Names
import Verif.Woflan.Reach
import Verif.Woflan.Short
import Verif.Woflan.Spec
import Verif.Woflan.Theorems
import Verif.Xes.Markup
import Verif.Murata.Examples
import Verif.Murata.Model
import Verif.Murata.Proofs
import Verif.Murata.Spec
import Verif.Murata.Theorems
import Verif.Bpmn.Build
import Verif.Bpmn.Elim
import Verif.Bpmn.Examples
import Verif.Bpmn.Hub
import Verif.Bpmn.Model
import Verif.Bpmn.Net
import Verif.Bpmn.Spec
import Verif.Bpmn.Theorems
import Verif.Precision.Eventually
import Verif.Precision.Examples
import Verif.Precision.Formula
import Verif.Precision.Markings
import Verif.Precision.Model
import Verif.Precision.Search
import Verif.Precision.Theorems
import Verif.CycleTime.Model
import Verif.CycleTime.Theorems
import Verif.TransSys.Examples
import Verif.TransSys.Model
import Verif.TransSys.Theorems
import Verif.Batches.Examples
import Verif.Batches.Model
import Verif.Batches.Theorems
import Verif.BusinessHours.Model
import Verif.BusinessHours.Theorems
import Verif.TempProfile.Examples
import Verif.TempProfile.Model
import Verif.TempProfile.Theorems
import Verif.Inductive.Ops
import Verif.TreeBpmn.Body
import Verif.TreeBpmn.BodyBlock
import Verif.TreeBpmn.Delete
import Verif.TreeBpmn.Examples
import Verif.TreeBpmn.Graph
import Verif.TreeBpmn.Loop
import Verif.TreeBpmn.LoopBlock
import Verif.TreeBpmn.Model
import Verif.TreeBpmn.Rec
import Verif.TreeBpmn.Spec
import Verif.TreeBpmn.Theorems
import Verif.Sna.Basic
import Verif.Sna.Examples
import Verif.Sna.Model
import Verif.Sna.Spec
import Verif.Sna.Theorems
import Verif.OcFlat.Examples
import Verif.OcFlat.Model
import Verif.OcFlat.Spec
import Verif.OcFlat.Theorems
import Verif.SelfDist.Examples
import Verif.SelfDist.Model
import Verif.SelfDist.Spec
import Verif.SelfDist.Theorems
import Verif.EvFollow.Examples
import Verif.EvFollow.Model
import Verif.EvFollow.Spec
import Verif.EvFollow.Theorems
import Verif.Heuristics.Examples
import Verif.Heuristics.Model
import Verif.Heuristics.Spec
import Verif.Heuristics.Theorems
import Verif.Decomp.Examples
import Verif.Decomp.Graph
import Verif.Decomp.Merge
import Verif.Decomp.Model
import Verif.Decomp.Parts
import Verif.Decomp.Spec
import Verif.Decomp.Theorems
import Verif.LiveStream.Lemmas
import Verif.LiveStream.Live
import Verif.LiveStream.Model
import Verif.LiveStream.Order
import Verif.LiveStream.Props
import Verif.LiveStream.Spec
import Verif.StreamFp.Model
import Verif.StreamFp.Props
import Verif.StreamTemp.Model
import Verif.StreamTemp.Props
import Verif.Lifecycle.Match
import Verif.Lifecycle.Model
import Verif.Lifecycle.Props
import Verif.Spectrum.Model
import Verif.Spectrum.Props
import Verif.BpmnReduce.Model
import Verif.BpmnReduce.Props
import Verif.NetBpmn.Model
import Verif.NetBpmn.Props
import Verif.NetBpmn.Sim
import Verif.NetBpmn.Spec
import Verif.DiagReduce.Model
import Verif.DiagReduce.Props
import Verif.LeadTime.Model
import Verif.LeadTime.Props
import Verif.Quality.Model
import Verif.Quality.Props
import Verif.MlPrep.Model
import Verif.MlPrep.Props
import Verif.SpectrumDisc.Model
import Verif.SpectrumDisc.Props
import Verif.Alphabet.Model
import Verif.Alphabet.Props
import Verif.Roles.Model
import Verif.Roles.Props
import Verif.MoveAttrs.Model
import Verif.MoveAttrs.Props
import Verif.Arrival.Model
import Verif.Arrival.Props
