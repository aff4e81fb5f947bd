"""Usage: designrow.py LASTID 'row' [model-row]: append a row after the row of property LASTID, and a model row to the model table."""
import sys
p='/verif/DESIGN.md'; s=open(p).read()
i=s.index('| '+sys.argv[1]+' |'); j=s.index('\n',i)
s=s[:j+1]+sys.argv[2]+'\n'+s[j+1:]
if len(sys.argv)>3:
    k=s.index('| Model/Summary |'); s=s[:k]+sys.argv[3]+'\n'+s[k:]
open(p,'w').write(s)
