import Verif.Props.Walk
import Verif.Props.Expand
import Verif.Props.ExpandHeap
import Verif.Props.Concurrent
import Verif.Props.Printer
import Verif.Props.Smt2
import Verif.Props.GenError
import Verif.Props.Parse
import Verif.Props.ParseError
import Verif.Props.PegGrammar
import Verif.Props.Cmd
import Verif.Props.Roundtrip
import Verif.Props.Disk
import Verif.Props.Log
import Verif.Props.Count
import Verif.Props.Main
import Verif.Props.Dump
import Verif.Props.Reader
import Verif.Props.Sharing
import Verif.Props.WalkHeap
import Verif.Props.Rewrite
import Verif.Props.Compose
import Verif.Props.Nil
import Verif.Props.Relabel
import Verif.Props.Simul
import Verif.Props.Source
import Verif.Props.Size
import Verif.Props.Options
import Verif.Props.ReadBack
import Verif.Props.Solver
import Verif.Props.Verdict
import Verif.Props.VerdictMain
import Verif.Props.Crash
